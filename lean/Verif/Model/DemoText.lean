import Verif.Model.Demo

/-!
# What the demo program prints

`/repo/example/src/command_line.cpp` and `/repo/example/src/main.cpp` once more, with the texts written to `std::cout` and
`std::cerr`. `std::endl` is a newline. The texts are those of a run to its end.
-/

namespace Lev

open Spec

/-- A line: the text and `std::endl`. -/
def ln (s : String) : Str := lit s ++ [10]

/-- The digits of `n` written before `buf`, the last one first. -/
def putDigits (n : Nat) (buf : Str) : Str :=
  if n < 10 then UInt8.ofNat (48 + n) :: buf else putDigits (n / 10) (UInt8.ofNat (48 + n % 10) :: buf)
termination_by n
decreasing_by omega

/-- `std::cout << n` for a `std::size_t`. -/
def putSize (n : Nat) : Str := putDigits n []

/-- `std::cout << path`: `std::quoted(path.string())`, a backslash before each quote and each backslash. -/
def putPath (p : Str) : Str := [34] ++ p.flatMap (fun c => if c = 34 ∨ c = 92 then [92, c] else [c]) ++ [34]

/-- `CommandLine::print_help` (`command_line.cpp:107-131`). -/
def printHelp : Str :=
  ln "liblevenshtein-demo :: Interactively queries a dictionary using the" ++
  ln "configuration specified at the comand-line. Either a valid --dictionary-path or" ++
  ln "a --serialization-path must be provided." ++
  ln "--------------------------------------------------------------------------------" ++
  ln "  -h|--help                    Prints this help text." ++
  ln "  --dictionary-path <PATH>     Path to the dictionary text file (one term per" ++
  ln "                               line)." ++
  ln "  --serialization-path <PATH>  Path to the file containing the serialized" ++
  ln "                               dictionary." ++
  ln "  --standard                   [Optional] Use the standard Levenshtein distance " ++
  ln "                               (substitutions, insertions, and deletions)." ++
  ln "  --transposition              [Optional] Use the standard Levenshtein distance" ++
  ln "                               extended with transposition." ++
  ln "  --merge-and-split            [Optional] Use the standard Levenshtein distance" ++
  ln "                               extended with merge and split." ++
  ln "  --max-distance <VALUE>       Maximum edit distance from the query term for " ++
  ln "                               spelling candidates (default: 2)." ++
  ln "" ++
  ln "Examples:" ++
  ln "" ++
  ln "  ./liblevenshtein-demo --dictionary-path ../programming-languages.txt \\" ++
  ln "                        --serialization-path programming-languages.pb"

/-- `CommandLine::print_config` (`command_line.cpp:133-149`). -/
def printConfig (cli : Cli) : Str :=
  ln "Using configuration:" ++
  (lit "  dictionary-path: " ++ putPath cli.dict ++ [10]) ++
  (lit "  serialization-path: " ++ putPath cli.ser ++ [10]) ++
  (lit "  algorithm: " ++
    (match cli.alg with
      | .standard => lit "standard"
      | .transposition => lit "transposition"
      | .mergeAndSplit => lit "merge-and-split") ++ [10]) ++
  (lit "  max-distance: " ++ putSize cli.maxD ++ [10])

/-- The message of `next_path` and of `--max-distance` when the value is missing (`command_line.cpp:40`, `74`). -/
def notEnough : Str := ln "Not enough command-line args!"

/-- The loop of `CommandLine::parse_opts` (`command_line.cpp:46-87`) from index `i` on, with the text written to
`std::cerr`. -/
def parseLoopT (ex : Str → Bool) (argv : List Str) : Nat → Nat → Cli → Except Err (Cli × Bool × Str)
  | 0, _, _ => .error .diverge
  | fuel + 1, i, cli =>
      if argv.length ≤ i then .ok (cli, true, [])
      else match argv[i]? with
        | none => .error .ub
        | some arg =>
          if arg = lit "-h" ∨ arg = lit "--help" then .ok ({ cli with code := 0 }, false, printHelp)
          else if arg = lit "--dictionary-path" then
            if i + 1 < argv.length then
              match argv[i + 1]? with
              | none => .error .ub
              | some p =>
                if ex p then parseLoopT ex argv fuel (i + 2) { cli with dict := p }
                else .ok ({ cli with dict := p, code := 3 }, false,
                  ln "--dictionary-path=<PATH> must exist!" ++ (lit "--dictionary-path=" ++ putPath p ++ [10]))
            else .ok ({ cli with code := 2 }, false, notEnough)
          else if arg = lit "--serialization-path" then
            if i + 1 < argv.length then
              match argv[i + 1]? with
              | none => .error .ub
              | some p => parseLoopT ex argv fuel (i + 2) { cli with ser := p }
            else .ok ({ cli with code := 2 }, false, notEnough)
          else if arg = lit "--standard" then parseLoopT ex argv fuel (i + 1) { cli with alg := .standard }
          else if arg = lit "--transposition" then parseLoopT ex argv fuel (i + 1) { cli with alg := .transposition }
          else if arg = lit "--merge-and-split" then parseLoopT ex argv fuel (i + 1) { cli with alg := .mergeAndSplit }
          else if arg = lit "--max-distance" then
            if i + 1 = argv.length then .ok ({ cli with code := 2 }, false, notEnough)
            else match argv[i + 1]? with
              | none => .error .ub
              | some s => parseLoopT ex argv fuel (i + 2) { cli with maxD := parseSize s cli.maxD }
          else .ok ({ cli with code := 4 }, false, lit "Invalid argument: " ++ arg ++ [10] ++ printHelp)

/-- What `CommandLine::parse_opts` leaves: fields, result, texts on `std::cout` and on `std::cerr`. -/
structure ParseRun where
  cli : Cli
  go : Bool
  out : Str
  err : Str
deriving DecidableEq, Repr

/-- `CommandLine::parse_opts` (`command_line.cpp:45-101`). -/
def parseOptsT (ex : Str → Bool) (argv : List Str) : Except Err ParseRun := do
  let (cli, go, err) ← parseLoopT ex argv (argv.length + 1) 1 Cli.initial
  if !go then .ok { cli := cli, go := false, out := [], err := err }
  else if !ex cli.dict && !ex cli.ser then
    .ok { cli := { cli with code := 3 }, go := false, out := [],
          err := err ++ ln "Either --dictionary-path=<PATH> or --serialization-path=<PATH> must exist" ++
            (lit "--dictionary-path=" ++ putPath cli.dict ++ [10]) ++
            (lit "--serialization-path=" ++ putPath cli.ser ++ [10]) }
  else .ok { cli := cli, go := true, out := printConfig cli, err := err }

/-- The line printed for a candidate (`main.cpp:31-32`). -/
def printCandidate (q : Str) (c : Str × Nat) : Str :=
  lit "d(\"" ++ q ++ lit "\", \"" ++ c.1 ++ lit "\") = " ++ putSize c.2 ++ [10]

/-- The text of `prompt` (`main.cpp:51-53`). -/
def printPrompt : Str := ln "" ++ ln "Enter a query term (or nothing to exit)." ++ lit "query> "

/-- The loop of `main` (`main.cpp:91-106`) with what it prints. -/
def demoLoopT (A : Algorithm) (n : Nat) (mem : Mem) (root bound : Nat) : Nat → IStream → Str → Except Err Str
  | 0, _, _ => .error .diverge
  | fuel + 1, s, term =>
      let (s, term) := getline s term
      if term = [] then .ok printPrompt
      else do
        let rs ← transduce A updCandidate ([], 0) mem root term n bound
        let out ← demoLoopT A n mem root bound fuel s term
        .ok (printPrompt ++ rs.flatMap (printCandidate term) ++ out)

/-- What a run of the program leaves: its exit code, what it wrote to `std::cout` and `std::cerr`, the files and the
memory. -/
structure DemoRunT where
  code : Nat
  out : Str
  err : Str
  files : Files
  heap : Heap

/-- `main` (`main.cpp:58-120`). -/
def demoMainT (sgn : Bool) (addr : Nat → Nat) (fuel : Nat) (argv : List Str) (stdin : List UInt8) (fs : Files) (h : Heap) :
    Except Err DemoRunT := do
  let p ← parseOptsT (fun p => (fs.read p).isSome) argv
  if !p.go then .ok { code := p.cli.code, out := p.out, err := p.err, files := fs, heap := h }
  else
    let (h, r) ← demoDawg sgn addr fuel fs p.cli h
    match r with
    | none => .error .ub
    | some d =>
      let out ← demoLoopT p.cli.alg p.cli.maxD h.mem d.root fuel fuel (.open stdin) []
      let (fs, _) ← serializeFile sgn h.mem fuel d.root d.size fs p.cli.ser
      let h ← destroyDawg fuel h d
      .ok { code := 0, out := p.out ++ out ++ (ln "" ++ ln "Exiting ..."), err := p.err, files := fs, heap := h }

end Lev
