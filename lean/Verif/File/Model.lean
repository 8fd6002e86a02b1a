import Verif.Trie.Scan
import Mathlib.Data.Rat.Floor
import Mathlib.Data.Int.Log
import Mathlib.Data.Nat.Digits.Defs

/-!
# Model of `Trie.process_file` (experiments/find_replace_trie.py, lines 778–791 and 1052–1099) and of
`format_bytes` and `format_seconds` (lines 89–130)

`process_file` is a program over a file system. The state keeps, besides the current file system, the
file system after every system call that changed it, so that statements about crashes at any moment
can be made. Any system call may fail (`Env.fault`).

Simplifications: a path is its text (`.`, `..`, repeated slashes and links are not resolved, POSIX
separators); no other process changes the files; files hold text (an encoding or decoding error is a
failing read or write); the input is read as a whole before the first write (it cannot change in
between: the only file written is the temporary one, which is empty at that moment if it is also the
input). Printing is left out, except that the arguments of the `print` calls are evaluated.
-/

namespace Verif
namespace File

/-- A path. -/
abbrev Path := List Char

/-- The file system: texts of the regular files, and the directories. -/
structure FS where
  files : Path → Option (List Char)
  dirs : Path → Bool

/-- Exceptions. -/
inductive FExc where
  | osError            -- a system call failed, for a reason outside of the model
  | fileNotFound
  | fileExists
  | isADirectory
  | assertionError
  | typeError
  | attributeError
  | py (e : PyErr)     -- raised inside `_translate_tokens` or `format_seconds`
deriving DecidableEq

/-- State of a run: the file system, the number of system calls so far and the file system after each
of the calls that succeeded. -/
structure FState where
  fs : FS
  calls : ℕ
  history : List FS

/-- What the environment decides: which system calls fail, whether a failing `open` for writing has
already created the file (as it has when the encoding is unknown), and the time between the two
readings of the clock. -/
structure Env where
  fault : ℕ → Bool
  openLeaves : Bool
  elapsed : ℚ

/-- A program over the file system. -/
structure FM (α : Type) where
  run : FState → Except FExc α × FState

/-- Sequencing. -/
def FM.bind {α β : Type} (c : FM α) (f : α → FM β) : FM β := ⟨fun s =>
  match c.run s with
  | (.ok a, s') => (f a).run s'
  | (.error e, s') => (.error e, s')⟩

instance : Monad FM where
  pure a := ⟨fun s => (.ok a, s)⟩
  bind := FM.bind

/-- `raise`. -/
def raise {α : Type} (e : FExc) : FM α := ⟨fun s => (.error e, s)⟩

/-- A system call that computes `f` on the file system, or fails. -/
def sys (env : Env) (f : FS → Except FExc FS) : FM Unit := ⟨fun s =>
  if env.fault s.calls then (.error .osError, { s with calls := s.calls + 1 })
  else
    match f s.fs with
    | .error e => (.error e, { s with calls := s.calls + 1 })
    | .ok fs => (.ok (), ⟨fs, s.calls + 1, s.history ++ [fs]⟩)⟩

/-- Looking at the file system. -/
def look : FM FS := ⟨fun s => (.ok s.fs, s)⟩

/-- Changing one file. -/
def FS.setFile (fs : FS) (p : Path) (v : Option (List Char)) : FS :=
  { fs with files := fun q => if q = p then v else fs.files q }

/-- `os.path.exists(p)` (find_replace_trie.py:1065, 1071, 1094). -/
def FS.exists_ (fs : FS) (p : Path) : Bool := (fs.files p).isSome || fs.dirs p

/-- The part of a path up to and with its last slash, and the rest. -/
def splitAtSlash (p : Path) : Path × Path :=
  ((p.reverse.dropWhile (· ≠ '/')).reverse, (p.reverse.takeWhile (· ≠ '/')).reverse)

/-- `os.path.split(p)` (posixpath; used by `os.makedirs`). -/
def splitPath (p : Path) : Path × Path :=
  let (head, tail) := splitAtSlash p
  if head.all (· = '/') then (head, tail)
  else ((head.reverse.dropWhile (· = '/')).reverse, tail)

/-- `os.path.dirname(p)` (find_replace_trie.py:1070–1072). -/
def dirname (p : Path) : Path := (splitPath p).1

/-- `os.mkdir(p)` (called by `os.makedirs`). -/
def mkdir (env : Env) (p : Path) : FM Unit := sys env fun fs =>
  if p = [] then .error .fileNotFound
  else if fs.exists_ p then .error .fileExists
  else if dirname p ≠ [] && !fs.dirs (dirname p) then .error .fileNotFound
  else .ok { fs with dirs := fun q => q = p || fs.dirs q }

/-- `try: body` `except FileExistsError: pass` (in `os.makedirs`). -/
def ignoreExists (body : FM Unit) : FM Unit := ⟨fun s =>
  match body.run s with
  | (.error .fileExists, s') => (.ok (), s')
  | r => r⟩

/-- `os.makedirs(p)` (find_replace_trie.py:1072), after the source of the `os` module; the recursion
is on a shorter path each time, so `fuel = len(p)` suffices. -/
def makedirs (env : Env) : ℕ → Path → FM Unit
  | 0, p => mkdir env p
  | fuel + 1, p =>
    let ht := splitPath p
    let ht := if ht.2 = [] then splitPath ht.1 else ht
    do
      let fs ← look
      if ht.1 ≠ [] ∧ ht.2 ≠ [] ∧ fs.exists_ ht.1 = false then do
        ignoreExists (makedirs env fuel ht.1)
        if ht.2 = ['.'] then pure () else mkdir env p
      else mkdir env p

/-- `os.path.getsize(p)` (find_replace_trie.py:1077); only the exception matters. -/
def getsize (env : Env) (p : Path) : FM Unit := sys env fun fs =>
  if fs.exists_ p then .ok fs else .error .fileNotFound

/-- `open(p, 'wt')` (find_replace_trie.py:1082): creates or empties the file. -/
def openW (env : Env) (p : Path) : FM Unit := ⟨fun s =>
  if env.fault s.calls && env.openLeaves && !s.fs.dirs p &&
      (dirname p = [] || s.fs.dirs (dirname p)) then
    let fs := s.fs.setFile p (some [])
    (.error .osError, ⟨fs, s.calls + 1, s.history ++ [fs]⟩)
  else
    (sys env fun fs =>
      if fs.dirs p then .error .isADirectory
      else if dirname p ≠ [] && !fs.dirs (dirname p) then .error .fileNotFound
      else .ok (fs.setFile p (some []))).run s⟩

/-- `io.open(p, 'rt')` (find_replace_trie.py:788). -/
def openR (env : Env) (p : Path) : FM Unit := sys env fun fs =>
  if fs.dirs p then .error .isADirectory
  else if (fs.files p).isNone then .error .fileNotFound
  else .ok fs

/-- A read or a close: it may fail and changes nothing. -/
def tick (env : Env) : FM Unit := sys env .ok

/-- `_f.write(chunk)` (find_replace_trie.py:1084). -/
def write (env : Env) (p : Path) (chunk : List Char) : FM Unit := sys env fun fs =>
  .ok (fs.setFile p (some ((fs.files p).getD [] ++ chunk)))

/-- `os.remove(p)` (find_replace_trie.py:1089, 1095). -/
def remove (env : Env) (p : Path) : FM Unit := sys env fun fs =>
  if fs.dirs p then .error .isADirectory
  else if (fs.files p).isNone then .error .fileNotFound
  else .ok (fs.setFile p none)

/-- `os.rename(a, b)` (find_replace_trie.py:1096); both are in the same directory. -/
def rename (env : Env) (a b : Path) : FM Unit := sys env fun fs =>
  match fs.files a with
  | none => .error .fileNotFound
  | some c => if fs.dirs b then .error .isADirectory else .ok ((fs.setFile a none).setFile b (some c))

/-- Universal newlines: what reading a text file does with line ends (`newline=None`). Writing with
`'wt'` keeps `\n` on POSIX. -/
def universal : List Char → List Char
  | [] => []
  | '\r' :: '\n' :: r => '\n' :: universal r
  | '\r' :: r => '\n' :: universal r
  | c :: r => c :: universal r

/-- The chunks of the loop at find_replace_trie.py:1083. Text mode: `_translate_tokens` on the tokens
of the text. Binary mode (`encoding=None`): the tokens of a binary file are integers, which match no
key and cannot be written (`TypeError`), or have no `.lower()` if the trie was made with
`lowercase=True` (`AttributeError`); tokenizers given by the caller are not modelled in this mode. -/
def chunksOf (tok : List Char → List (List Char)) (t : Trie (List Char) (List Char))
    (encNone lowercase : Bool) (text : List Char) : Except FExc (List (List Char)) :=
  if encNone then
    if text = [] then .ok [] else .error (if lowercase then .attributeError else .typeError)
  else
    match Trie.translateTokens tok t.root (tok (universal text)) with
    | .error e => .error (.py e)
    | .ok l => .ok l

/-- The loop of find_replace_trie.py:1083–1084: each round gets a chunk (which may read) and writes
it; the last attempt to get one may read too. -/
def writeAll (env : Env) (temp : Path) : List (List Char) → FM Unit
  | [] => tick env
  | c :: cs => do
    tick env
    write env temp c
    writeAll env temp cs

/-- Body of the `try`, find_replace_trie.py:1082–1084 and the end of the `with`. -/
def fillTemp (env : Env) (tok : List Char → List (List Char))
    (t : Trie (List Char) (List Char)) (encNone lowercase : Bool) (inp temp : Path) :
    FM Unit := do
  openW env temp
  openR env inp
  let fs ← look
  match chunksOf tok t encNone lowercase ((fs.files inp).getD []) with
  | .error e => raise e
  | .ok cs => do
    writeAll env temp cs
    tick env

/-- `try: body` `except Exception: handler; raise` (find_replace_trie.py:1081–1091). -/
def tryExcept (body handler : FM Unit) : FM Unit := ⟨fun s =>
  match body.run s with
  | (.error e, s') =>
    match handler.run s' with
    | (.ok _, s'') => (.error e, s'')
    | r => r
  | r => r⟩

/-! ### Formatting of numbers -/

/-- The decimal digits of a natural number, without leading zeros. -/
def digits (n : ℕ) : List Char :=
  if n = 0 then ['0'] else ((Nat.digits 10 n).map Nat.digitChar).reverse

/-- Digits after the point, padded with zeros on the left to the width `d`. -/
def padded (d n : ℕ) : List Char := List.replicate (d - (digits n).length) '0' ++ digits n

/-- Rounding of a non-negative number to an integer, ties to even. -/
def roundHalfEven (q : ℚ) : ℕ :=
  let n := ⌊q⌋₊
  if q - n < 1 / 2 then n else if 1 / 2 < q - n then n + 1 else if n % 2 = 0 then n else n + 1

/-- `'%.{d}f' % q` for `q ≥ 0` and `d ≥ 1`: the nearest decimal with `d` digits. -/
def fixed (d : ℕ) (q : ℚ) : List Char :=
  let n := roundHalfEven (q * 10 ^ d)
  digits (n / 10 ^ d) ++ '.' :: padded d (n % 10 ^ d)

/-- `('%.2f %s' if num % 1 else '%d %s') % (num, unit)` (find_replace_trie.py:106, 130). -/
def showNum (num : ℚ) (unit : List Char) : List Char :=
  (if num - ⌊num⌋₊ ≠ 0 then fixed 2 num else digits ⌊num⌋₊) ++ ' ' :: unit

/-- The loop of `format_bytes` (find_replace_trie.py:102–104); `fuel` counts `8 - unit`. -/
def byteLoop : ℕ → ℕ → ℚ → ℚ × ℕ
  | 0, unit, num => (num, unit)
  | fuel + 1, unit, num =>
    if 1024 ≤ num then byteLoop fuel (unit + 1) (num / 1024) else (num, unit)

/-- The names of find_replace_trie.py:105. -/
def byteUnits : List String :=
  ["Bytes", "KiB", "MiB", "GiB", "TiB", "PiB", "EiB", "ZiB", "YiB"]

/-- `format_bytes(num)` (find_replace_trie.py:89–106). -/
def formatBytes (num : ℤ) : Except PyErr (List Char) :=
  let num := num.natAbs
  if num = 0 then .ok "0 Bytes".toList
  else if num = 1 then .ok "1 Byte".toList
  else
    let r := byteLoop 8 0 num
    match byteUnits[r.2]? with
    | none => .error .indexError
    | some u => .ok (showNum r.1 u.toList)

/-- The loop of `format_seconds` (find_replace_trie.py:125–127). The condition reads
`denominators[unit]` before it tests `unit < 4`, so the end of the list raises `IndexError`. -/
def secondLoop : List ℚ → ℕ → ℚ → Except PyErr (ℚ × ℕ)
  | [], _, _ => .error .indexError
  | d :: ds, unit, num =>
    if d ≤ num ∧ unit < 4 then secondLoop ds (unit + 1) (num / d) else .ok (num, unit)

/-- The names of find_replace_trie.py:128. -/
def secondUnits : List String := ["seconds", "minutes", "hours", "days", "weeks"]

/-- `format_seconds(num)` (find_replace_trie.py:109–130). -/
def formatSeconds (num : ℚ) : Except PyErr (List Char) :=
  let num := |num|
  if num = 0 then .ok "0 seconds".toList
  else if num = 1 then .ok "1 second".toList
  else if num < 1 then .ok (fixed (1 - Int.log 10 num).toNat num ++ " seconds".toList)
  else
    match secondLoop [60, 60, 24, 7] 0 num with
    | .error e => .error e
    | .ok (num, unit) =>
      match secondUnits[unit]? with
      | none => .error .indexError
      | some u => .ok (showNum num (if num = 1 then u.toList.dropLast else u.toList))

/-- Line 1098: the argument of `print`. -/
def printTime (env : Env) : FM Unit :=
  match formatSeconds env.elapsed with
  | .error e => raise (.py e)
  | .ok _ => pure ()

/-- Lines 1069–1072: make the missing folders. -/
def makeFolder (env : Env) (d : Path) : FM Unit := do
  let fs ← look
  if fs.dirs d then pure ()
  else if fs.exists_ d then raise .assertionError
  else makedirs env d.length d

/-- Lines 1093–1098: the result takes the place of the old output. -/
def install (env : Env) (temp out : Path) : FM Unit := do
  let fs ← look
  if fs.exists_ out then remove env out else pure ()
  rename env temp out
  printTime env

/-- `output_path + '.partial'` (line 1078). -/
def tempOf (out : Path) : Path := out ++ ".partial".toList

/-- `process_file(input_path, output_path, overwrite, encoding)` (find_replace_trie.py:1052–1098);
`encNone` says that `encoding is None`. -/
def processFile (env : Env) (tok : List Char → List (List Char))
    (t : Trie (List Char) (List Char)) (lowercase : Bool) (inp out : Path)
    (overwrite encNone : Bool) : FM Unit := do
  let fs ← look
  if fs.exists_ out && !overwrite then pure ()
  else do
    makeFolder env (dirname out)
    getsize env inp
    tryExcept (fillTemp env tok t encNone lowercase inp (tempOf out)) (remove env (tempOf out))
    install env (tempOf out) out

end File
end Verif
