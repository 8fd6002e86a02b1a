import Verif.Trie.Model
import Verif.Py.Sort

/-!
# Model of `Trie.finditer`, `search`, `findall` and `translate`
(experiments/find_replace_trie.py, lines 793–966, 1044–1050)

* The generators are modelled by the list of what they yield.
* The inner loop over the spans is the same in `_translate_tokens` (818–831) and `finditer`
  (907–922) except for what is stored with a span and with a match; it is one definition here,
  with those parts as parameters.
* The Python sets of positions to remove are lists used only for membership.
-/

namespace Verif
namespace Trie

variable {κ τ ν σ μ : Type} [DecidableEq τ]

/-- Local variables of the inner loop. -/
structure Work (σ μ : Type) where
  spans : Dict Nat σ
  matches_ : Dict Nat μ
  matchesToRemove : List Nat
  spansToRemove : List Nat

/-- Body of `for span_start, … in spans.items()` (lines 818–831 and 907–922). `head` is the node of a
span, `next` the span with the new node, `record` the entry put into `matches`; `forbid` is
`not allow_overlapping`, always true in `_translate_tokens`. Line 827, which adds to
`spans_to_remove` the range just added to `matches_to_remove`, is accounted for in `cleanup`. -/
def spanBody (head : σ → Node τ ν) (next : σ → Node τ ν → σ) (record : σ → ν → μ) (forbid : Bool)
    (index : Nat) (item : τ) (w : Work σ μ) (p : Nat × σ) : Work σ μ :=
  match Dict.get? (head p.2).kids item with
  | none => { w with spansToRemove := w.spansToRemove ++ [p.1] }
  | some newHead =>
    let s := next p.2 newHead
    let w := { w with spans := Dict.set w.spans p.1 s }
    match newHead.val with
    | none => w
    | some v =>
      { w with
        matches_ := Dict.set w.matches_ p.1 (record s v)
        matchesToRemove :=
          if forbid then w.matchesToRemove ++ List.range' (p.1 + 1) (index - p.1)
          else w.matchesToRemove }

/-- Removal of impossible matches and spans (lines 834–839 and 925–930). -/
def cleanup (w : Work σ μ) : Dict Nat σ × Dict Nat μ :=
  (w.spans.filter (fun p => !(w.matchesToRemove.contains p.1 || w.spansToRemove.contains p.1)),
   w.matches_.filter (fun p => !w.matchesToRemove.contains p.1))

/-- One token of the input up to the removals (lines 810–839 and 900–930): the new spans and
matches. -/
def scanToken (head : σ → Node τ ν) (next : σ → Node τ ν → σ) (record : σ → ν → μ) (forbid : Bool)
    (start : σ) (index : Nat) (item : τ) (spans : Dict Nat σ) (ms : Dict Nat μ) :
    Dict Nat σ × Dict Nat μ :=
  let spans := Dict.set spans index start
  cleanup (spans.foldl (spanBody head next record forbid index item) ⟨spans, ms, [], []⟩)

/-- `min(d) if d else default` (lines 842–843, 860, 933). -/
def minKeyD {μ : Type} (d : Dict Nat μ) (default : Nat) : Nat := (Dict.keys d).min?.getD default

/-- `sorted(matches.items())` (lines 867, 944): keys are distinct, so values are never compared. -/
def sortedItems {μ : Type} (d : Dict Nat μ) : List (Nat × μ) :=
  d.insertionSort (fun a b => a.1 ≤ b.1)

/-! ### `finditer` -/

/-- A match as `(start, end, tokens)`; the code stores the detokenized tokens in `Match`. -/
abbrev Hit (τ : Type) := Nat × Nat × List τ

/-- State of `finditer` between two tokens. -/
structure FindState (τ ν : Type) where
  index : Nat
  spans : Dict Nat (Node τ ν × List τ)
  matches_ : Dict Nat (Nat × List τ)
  out : List (Hit τ)

/-- `while matches: …` (lines 934–941). Every round deletes a match, so `fuel = len(matches)`
rounds suffice. -/
def emitHits (ov : Bool) (firstSpan : Nat) :
    Nat → Dict Nat (Nat × List τ) → List (Hit τ) →
      Except PyErr (Dict Nat (Nat × List τ) × List (Hit τ))
  | 0, ms, out => .ok (ms, out)
  | fuel + 1, ms, out =>
    match (Dict.keys ms).min? with
    | none => .ok (ms, out)
    | some s =>
      if s < firstSpan || ov then
        match Dict.get? ms s with
        | none => .error .keyError
        | some (e, seq) => emitHits ov firstSpan fuel (Dict.erase ms s) (out ++ [(s, e, seq)])
      else .ok (ms, out)

/-- One round of the loop of `finditer` (lines 898–941). -/
def findToken (root : Node τ ν) (ov : Bool) (st : FindState τ ν) (item : τ) :
    Except PyErr (FindState τ ν) :=
  let r := scanToken Prod.fst (fun s n => (n, s.2 ++ [item])) (fun s _ => (st.index + 1, s.2))
    (!ov) (root, []) st.index item st.spans st.matches_
  match emitHits ov (minKeyD r.1 st.index) r.2.length r.2 st.out with
  | .error e => .error e
  | .ok (ms, out) => .ok ⟨st.index + 1, r.1, ms, out⟩

/-- The loop of `finditer` (lines 898–941). -/
def findLoop (root : Node τ ν) (ov : Bool) :
    List τ → FindState τ ν → Except PyErr (FindState τ ν)
  | [], st => .ok st
  | t :: ts, st =>
    match findToken root ov st t with
    | .error e => .error e
    | .ok st => findLoop root ov ts st

/-- `finditer(input_sequence, allow_overlapping=ov)` (lines 882–945) on the tokens of the input. -/
def findTokens (root : Node τ ν) (ov : Bool) (tokens : List τ) : Except PyErr (List (Hit τ)) :=
  match findLoop root ov tokens ⟨0, [], [], []⟩ with
  | .error e => .error e
  | .ok st => .ok (st.out ++ (sortedItems st.matches_).map (fun p => (p.1, p.2.1, p.2.2)))

/-- `finditer` (lines 882–945): the matches with their detokenized texts. -/
def finditer (tok : κ → List τ) (detok : List τ → κ) (t : Trie τ ν) (ov : Bool) (text : κ) :
    Except PyErr (List (Nat × Nat × κ)) :=
  match findTokens t.root ov (tok text) with
  | .error e => .error e
  | .ok l => .ok (l.map (fun h => (h.1, h.2.1, detok h.2.2)))

/-- `search` (lines 947–959): the first match, `None` when there is none. -/
def search (tok : κ → List τ) (detok : List τ → κ) (t : Trie τ ν) (ov : Bool) (text : κ) :
    Except PyErr (Option (Nat × Nat × κ)) :=
  match finditer tok detok t ov text with
  | .error e => .error e
  | .ok l => .ok l.head?

/-- `findall` (lines 961–966). -/
def findall (tok : κ → List τ) (detok : List τ → κ) (t : Trie τ ν) (ov : Bool) (text : κ) :
    Except PyErr (List κ) :=
  match finditer tok detok t ov text with
  | .error e => .error e
  | .ok l => .ok (l.map (fun h => h.2.2))

/-! ### `translate` -/

/-- State of `_translate_tokens` between two tokens. -/
structure TransState (τ ν : Type) where
  index : Nat
  buffer : List (Nat × τ)
  spans : Dict Nat (Node τ ν)
  matches_ : Dict Nat (Nat × ν)
  out : List τ

/-- Lines 849–857 and 868–876: emit the tokens before the match, drop those of the match, emit the
replacement. -/
def emitMatch (tokv : ν → List τ) (start stop : Nat) (v : ν) (buffer : List (Nat × τ))
    (out : List τ) : List (Nat × τ) × List τ :=
  let out := out ++ (buffer.takeWhile (fun p => p.1 < start)).map Prod.snd
  let buffer := (buffer.dropWhile (fun p => p.1 < start)).dropWhile (fun p => p.1 < stop)
  (buffer, out ++ tokv v)

/-- `while first_match < first_span: …` (lines 846–860). `matches[first_match]` raises `KeyError`
when the key is missing. Every round deletes a match, so `len(matches) + 1` rounds suffice. -/
def emitReplacements (tokv : ν → List τ) (index firstSpan : Nat) :
    Nat → Dict Nat (Nat × ν) → List (Nat × τ) → List τ →
      Except PyErr (Dict Nat (Nat × ν) × List (Nat × τ) × List τ)
  | 0, ms, buffer, out => .ok (ms, buffer, out)
  | fuel + 1, ms, buffer, out =>
    let firstMatch := minKeyD ms index
    if firstMatch < firstSpan then
      match Dict.get? ms firstMatch with
      | none => .error .keyError
      | some (stop, v) =>
        let r := emitMatch tokv firstMatch stop v buffer out
        emitReplacements tokv index firstSpan fuel (Dict.erase ms firstMatch) r.1 r.2
    else .ok (ms, buffer, out)

/-- One round of the loop of `_translate_tokens` (lines 806–864). -/
def transToken (tokv : ν → List τ) (root : Node τ ν) (st : TransState τ ν) (item : τ) :
    Except PyErr (TransState τ ν) :=
  let buffer := st.buffer ++ [(st.index, item)]
  let r := scanToken id (fun _ n => n) (fun _ v => (st.index + 1, v)) true root st.index item
    st.spans st.matches_
  let firstSpan := minKeyD r.1 st.index
  match emitReplacements tokv st.index firstSpan (r.2.length + 1) r.2 buffer st.out with
  | .error e => .error e
  | .ok (ms, buffer, out) =>
    .ok ⟨st.index + 1, buffer.dropWhile (fun p => p.1 < firstSpan), r.1, ms,
      out ++ (buffer.takeWhile (fun p => p.1 < firstSpan)).map Prod.snd⟩

/-- The loop of `_translate_tokens` (lines 806–864). -/
def transLoop (tokv : ν → List τ) (root : Node τ ν) :
    List τ → TransState τ ν → Except PyErr (TransState τ ν)
  | [], st => .ok st
  | t :: ts, st =>
    match transToken tokv root st t with
    | .error e => .error e
    | .ok st => transLoop tokv root ts st

/-- `_translate_tokens(tokens)` (lines 793–880). -/
def translateTokens (tokv : ν → List τ) (root : Node τ ν) (tokens : List τ) :
    Except PyErr (List τ) :=
  match transLoop tokv root tokens ⟨0, [], [], [], []⟩ with
  | .error e => .error e
  | .ok st =>
    let r := (sortedItems st.matches_).foldl
      (fun r p => emitMatch tokv p.1 p.2.1 p.2.2 r.1 r.2) (st.buffer, st.out)
    .ok (r.2 ++ r.1.map Prod.snd)

/-- `translate(text)` (lines 1044–1050). Values are texts, tokenized by the same tokenizer. -/
def translate (tok : κ → List τ) (detok : List τ → κ) (t : Trie τ κ) (text : κ) :
    Except PyErr κ :=
  match translateTokens tok t.root (tok text) with
  | .error e => .error e
  | .ok l => .ok (detok l)

end Trie
end Verif
