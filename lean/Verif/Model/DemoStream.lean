import Verif.Model.Stream

/-!
# The demo program with a `std::cout` that may fail

`/repo/example/src/command_line.cpp` and `/repo/example/src/main.cpp` once more.  In `Verif/Model/DemoText.lean` everything that is
printed is taken; here `std::cout` is a stream that takes only so many bytes (a full disk, a pipe that nobody reads from) or has failed
from the beginning (a closed descriptor).  The program never looks at the state of the stream.

Simplifications: `std::cerr` takes everything; no signal is raised by a pipe that was closed; the buffers of `std::cout` are left out: a
byte is taken or not when it is printed.
-/

namespace Lev

open Spec

/-- `out << … << std::endl`: the pieces and a newline. -/
def OStream.line (out : OStream) (ps : List Str) : OStream := (ps.foldl OStream.insert out).insert [10]

/-- `CommandLine::print_config` (`command_line.cpp:133-149`). -/
def streamConfig (out : OStream) (cli : Cli) : OStream :=
  let out := out.line [lit "Using configuration:"]
  let out := out.line [lit "  dictionary-path: ", putPath cli.dict]
  let out := out.line [lit "  serialization-path: ", putPath cli.ser]
  let out := out.insert (lit "  algorithm: ")
  let out := match cli.alg with
    | .standard => out.insert (lit "standard")
    | .transposition => out.insert (lit "transposition")
    | .mergeAndSplit => out.insert (lit "merge-and-split")
  let out := out.line []
  out.line [lit "  max-distance: ", putSize cli.maxD]

/-- `CommandLine::parse_opts` (`command_line.cpp:45-101`) with the stream: fields, result, `std::cout`, and the text on `std::cerr`. -/
def parseOptsS (ex : Str → Bool) (argv : List Str) (out : OStream) : Except Err (Cli × Bool × OStream × Str) := do
  let (cli, go, err) ← parseLoopT ex argv (argv.length + 1) 1 Cli.initial
  if !go then .ok (cli, false, out, err)
  else if !ex cli.dict && !ex cli.ser then
    .ok ({ cli with code := 3 }, false, out,
      err ++ ln "Either --dictionary-path=<PATH> or --serialization-path=<PATH> must exist" ++
        (lit "--dictionary-path=" ++ putPath cli.dict ++ [10]) ++ (lit "--serialization-path=" ++ putPath cli.ser ++ [10]))
  else .ok (cli, true, streamConfig out cli, err)

/-- The body of the loop in `query` (`main.cpp:31-32`). -/
def streamCandidate (q : Str) (out : OStream) (c : Str × Nat) : OStream :=
  out.line [lit "d(\"", q, lit "\", \"", c.1, lit "\") = ", putSize c.2]

/-- `prompt` up to `getline` (`main.cpp:51-53`). -/
def streamPrompt (out : OStream) : OStream :=
  let out := out.line []
  let out := out.line [lit "Enter a query term (or nothing to exit)."]
  out.insert (lit "query> ")

/-- The loop of `main` (`main.cpp:91-106`). -/
def demoLoopS (A : Algorithm) (n : Nat) (mem : Mem) (root bound : Nat) : Nat → IStream → Str → OStream → Except Err OStream
  | 0, _, _, _ => .error .diverge
  | fuel + 1, s, term, out =>
      let out := streamPrompt out
      let (s, term) := getline s term
      if term = [] then .ok out
      else do
        let rs ← transduce A updCandidate ([], 0) mem root term n bound
        demoLoopS A n mem root bound fuel s term (rs.foldl (streamCandidate term) out)

/-- What a run of the program leaves. -/
structure DemoRunS where
  code : Nat
  out : OStream
  err : Str
  files : Files
  heap : Heap

/-- `main` (`main.cpp:58-120`). -/
def demoMainS (sgn : Bool) (addr : Nat → Nat) (fuel : Nat) (argv : List Str) (stdin : List UInt8) (out : OStream) (fs : Files)
    (h : Heap) : Except Err DemoRunS := do
  let (cli, go, out, err) ← parseOptsS (fun p => (fs.read p).isSome) argv out
  if !go then .ok { code := cli.code, out := out, err := err, files := fs, heap := h }
  else
    let (h, r) ← demoDawg sgn addr fuel fs cli h
    match r with
    | none => .error .ub
    | some d =>
      let out ← demoLoopS cli.alg cli.maxD h.mem d.root fuel fuel (.open stdin) [] out
      let out := out.line []
      let out := out.line [lit "Exiting ..."]
      let (fs, _) ← serializeFile sgn h.mem fuel d.root d.size fs cli.ser
      let h ← destroyDawg fuel h d
      .ok { code := 0, out := out, err := err, files := fs, heap := h }

end Lev
