import Verif.Model.Query
import Verif.Model.Wire

/-!
# The demo program

Model of `/repo/example/src/command_line.{h,cpp}` and `/repo/example/src/main.cpp`: options, reading of the text file with
the terms, the loop that reads query terms, loading and saving of the serialized dictionary.

* The arguments are the strings `argv[0], ..., argv[argc - 1]`; reading beyond is undefined behaviour (reading
  `argv[argc]` would be, after the conversion to a path).
* A file system maps a path to the contents of a file, or to nothing; a path that exists can be opened for reading.
  Directories, permissions for reading and exceptions thrown by `std::filesystem` are not modelled. Whether a path can be
  opened for writing is a parameter.
* What the program prints is modelled by its results only: the query terms read and, for each, the candidates.
* `std::getline`, `operator>>` and `std::sort` behave as the C++ standard says; see the definitions.
-/

namespace Lev

open Spec

/-! ## Streams -/

/-- An input stream: the bytes not yet extracted, and the bits `eofbit` and `failbit` of its state. -/
structure IStream where
  rest : List UInt8
  eof : Bool
  fail : Bool
deriving DecidableEq, Repr

/-- A stream just opened. -/
def IStream.open (bytes : List UInt8) : IStream := { rest := bytes, eof := false, fail := false }

/-- The characters before the first newline, and what follows it if there is one. -/
def cutLine : List UInt8 → List UInt8 × Option (List UInt8)
  | [] => ([], none)
  | c :: cs => if c = 10 then ([], some cs) else (c :: (cutLine cs).1, (cutLine cs).2)

/-- `std::getline(stream, str)`. If the stream is not good, the sentry sets `failbit` and `str` is left alone. Otherwise
`str` is erased and characters are extracted up to a newline, which is extracted but not appended, or to the end of the
stream, which sets `eofbit`; if nothing was extracted `failbit` is set. -/
def getline (s : IStream) (str : Str) : IStream × Str :=
  if s.eof || s.fail then ({ s with fail := true }, str)
  else match cutLine s.rest with
    | (line, some rest) => ({ s with rest := rest }, line)
    | (line, none) => ({ rest := [], eof := true, fail := line.isEmpty }, line)

/-- The loop that reads the terms (`main.cpp:76-79`). -/
def readTerms : Nat → IStream → Str → List Str → Except Err (List Str)
  | 0, _, _, _ => .error .diverge
  | fuel + 1, s, term, terms =>
      let (s, term) := getline s term
      if s.fail then .ok terms else readTerms fuel s term (terms ++ [term])

/-- Insertion of a term in a sorted vector. -/
def insertTerm (t : Str) : List Str → List Str
  | [] => [t]
  | s :: ts => if strLt s t then s :: insertTerm t ts else t :: s :: ts

/-- `std::sort(terms.begin(), terms.end())` (`main.cpp:83`): the order of `std::string` is total, so that the result does
not depend on how it is sorted. -/
def sortTerms (terms : List Str) : List Str := terms.foldr insertTerm []

/-! ## Options -/

/-- The bytes of a string literal (ASCII). -/
def lit (s : String) : Str := s.toList.map fun c => UInt8.ofNat c.toNat

/-- `isspace` in the "C" locale. -/
def isSpace (c : UInt8) : Bool := c = 32 || (9 ≤ c.toNat && c.toNat ≤ 13)

/-- The decimal digits `'0'` to `'9'`. -/
def isDigit (c : UInt8) : Bool := 48 ≤ c.toNat && c.toNat ≤ 57

/-- The value of a string of decimal digits. -/
def digitsValue (ds : Str) : Nat := ds.foldl (fun v c => 10 * v + (c.toNat - 48)) 0

/-- `stream >> value` for a `std::size_t` and a stream over `s` (`command_line.cpp:78-79`). Whitespace is skipped; if
nothing is left the value is not changed; an optional sign and digits are read; without digits the value becomes 0; a
number that does not fit becomes the largest `std::size_t`; a minus sign negates modulo 2^64. -/
def parseSize (s : Str) (old : Nat) : Nat :=
  match s.dropWhile isSpace with
  | [] => old
  | c :: cs =>
      let ds := (if c = 45 ∨ c = 43 then cs else c :: cs).takeWhile isDigit
      if ds = [] then 0
      else if 2 ^ 64 ≤ digitsValue ds then 2 ^ 64 - 1
      else if c = 45 then (2 ^ 64 - digitsValue ds) % 2 ^ 64
      else digitsValue ds

/-- The fields of `CommandLine` (`command_line.h:45-49`). -/
structure Cli where
  code : Nat
  dict : Str
  ser : Str
  alg : Algorithm
  maxD : Nat
deriving DecidableEq, Repr

/-- Their initial values (`command_line.h:45-49`). -/
def Cli.initial : Cli :=
  { code := 0, dict := lit "../resources/programming-languages.txt", ser := lit "programming-languages.pb",
    alg := .transposition, maxD := 2 }

/-- The loop of `CommandLine::parse_opts` (`command_line.cpp:46-87`) from index `i` on; `next_path`
(`command_line.cpp:34-43`) is written out. The second result is false for `return false`. -/
def parseLoop (ex : Str → Bool) (argv : List Str) : Nat → Nat → Cli → Except Err (Cli × Bool)
  | 0, _, _ => .error .diverge
  | fuel + 1, i, cli =>
      if argv.length ≤ i then .ok (cli, true)
      else match argv[i]? with
        | none => .error .ub
        | some arg =>
          if arg = lit "-h" ∨ arg = lit "--help" then .ok ({ cli with code := 0 }, false)
          else if arg = lit "--dictionary-path" then
            if i + 1 < argv.length then
              match argv[i + 1]? with
              | none => .error .ub
              | some p =>
                if ex p then parseLoop ex argv fuel (i + 2) { cli with dict := p }
                else .ok ({ cli with dict := p, code := 3 }, false)
            else .ok ({ cli with code := 2 }, false)
          else if arg = lit "--serialization-path" then
            if i + 1 < argv.length then
              match argv[i + 1]? with
              | none => .error .ub
              | some p => parseLoop ex argv fuel (i + 2) { cli with ser := p }
            else .ok ({ cli with code := 2 }, false)
          else if arg = lit "--standard" then parseLoop ex argv fuel (i + 1) { cli with alg := .standard }
          else if arg = lit "--transposition" then parseLoop ex argv fuel (i + 1) { cli with alg := .transposition }
          else if arg = lit "--merge-and-split" then parseLoop ex argv fuel (i + 1) { cli with alg := .mergeAndSplit }
          else if arg = lit "--max-distance" then
            if i + 1 = argv.length then .ok ({ cli with code := 2 }, false)
            else match argv[i + 1]? with
              | none => .error .ub
              | some s => parseLoop ex argv fuel (i + 2) { cli with maxD := parseSize s cli.maxD }
          else .ok ({ cli with code := 4 }, false)

/-- `CommandLine::parse_opts` (`command_line.cpp:45-101`): the fields afterwards and the result. -/
def parseOpts (ex : Str → Bool) (argv : List Str) : Except Err (Cli × Bool) := do
  let (cli, go) ← parseLoop ex argv (argv.length + 1) 1 Cli.initial
  if !go then .ok (cli, false)
  else if !ex cli.dict && !ex cli.ser then .ok ({ cli with code := 3 }, false)
  else .ok (cli, true)

/-! ## The program -/

/-- A file system: the contents of files, and which paths can be opened for writing. -/
structure Files where
  read : Str → Option (List UInt8)
  writable : Str → Bool

/-- `deserialize_protobuf(path)` (`serializer.cpp:44-57`). A stream on a file that could not be opened has `failbit` but
not `eofbit`, and `ParseFromIstream` is false. -/
def deserializeFile (sgn : Bool) (addr : Nat → Nat) (fs : Files) (path : Str) (h : Heap) :
    Except Err (Heap × Option SDawg) :=
  match fs.read path with
  | none => .ok (h, none)
  | some bytes => deserializeStream sgn addr bytes h

/-- `serialize_protobuf(dawg, path)` (`serializer.cpp:21-42`). Opening the file empties it; nothing is written if the
message is too large. -/
def serializeFile (sgn : Bool) (mem : Mem) (fuel root size : Nat) (fs : Files) (path : Str) : Except Err (Files × Bool) := do
  let r ← serializeStream sgn mem fuel root size
  if fs.writable path then
    .ok ({ fs with read := fun p => if p = path then some (r.getD []) else fs.read p }, r.isSome)
  else .ok (fs, false)

/-- The loop of `main` (`main.cpp:91-106`): the query terms read, each with the candidates printed. `prompt`
(`main.cpp:50-56`) is `getline` into the same string. -/
def demoLoop (A : Algorithm) (n : Nat) (mem : Mem) (root bound : Nat) :
    Nat → IStream → Str → Except Err (List (Str × List (Str × Nat)))
  | 0, _, _ => .error .diverge
  | fuel + 1, s, term =>
      let (s, term) := getline s term
      if term = [] then .ok []
      else do
        let rs ← transduce A updCandidate ([], 0) mem root term n bound
        let out ← demoLoop A n mem root bound fuel s term
        .ok ((term, rs) :: out)

/-- The dictionary `main` works with (`main.cpp:68-89`). -/
def demoDawg (sgn : Bool) (addr : Nat → Nat) (fuel : Nat) (fs : Files) (cli : Cli) (h : Heap) :
    Except Err (Heap × Option SDawg) := do
  let (h, r) ← deserializeFile sgn addr fs cli.ser h
  match r with
  | some d => .ok (h, some d)
  | none =>
    let terms ← match fs.read cli.dict with
      | none => .ok []
      | some bytes => readTerms fuel (.open bytes) [] []
    sortedDawg sgn addr fuel (sortTerms terms) h

/-- What a run of the program leaves: its exit code, what it printed, the files and the memory. -/
structure DemoRun where
  code : Nat
  out : List (Str × List (Str × Nat))
  files : Files
  heap : Heap

/-- `main` (`main.cpp:58-120`). A null `dawg` (an unsorted dictionary, which cannot happen after `std::sort`) would be
dereferenced. -/
def demoMain (sgn : Bool) (addr : Nat → Nat) (fuel : Nat) (argv : List Str) (stdin : List UInt8) (fs : Files) (h : Heap) :
    Except Err DemoRun := do
  let (cli, go) ← parseOpts (fun p => (fs.read p).isSome) argv
  if !go then .ok { code := cli.code, out := [], files := fs, heap := h }
  else
    let (h, r) ← demoDawg sgn addr fuel fs cli h
    match r with
    | none => .error .ub
    | some d =>
      let out ← demoLoop cli.alg cli.maxD h.mem d.root fuel fuel (.open stdin) []
      let (fs, _) ← serializeFile sgn h.mem fuel d.root d.size fs cli.ser
      let h ← destroyDawg fuel h d
      .ok { code := 0, out := out, files := fs, heap := h }

end Lev
