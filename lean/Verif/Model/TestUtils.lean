import Verif.Model.TestSuite

/-!
# The helpers of the project's tests

Model of `/repo/test/liblevenshtein/test/utils/file_utils.cpp` and of
`/repo/test/liblevenshtein/config/rapidcheck_parser.cpp`.

* `rand()` is the sequence of the numbers it returns; `calls` is how many have been drawn.
* `fs::exists` is about regular files; `fs::temp_directory_path()` is a parameter `dir`.
* Paths are POSIX paths; `fs::path::operator/` is `joinPath`.
* The static vector of `gen_temp_path` is constructed, and thereby its destructor registered, before the handler is passed to
  `std::atexit`, so the handler runs first and sees the vector.
* The YAML document is a map from keys to the texts of scalars.
-/

namespace Lev

/-! ### `file_utils.cpp` -/

/-- `charset` (`file_utils.cpp:16-18`). -/
def charset : Str :=
  lit "0123456789" ++ lit "ABCDEFGHIJKLMNOPQRSTUVWXYZ" ++ lit "abcdefghijklmnopqrstuvwxyz"

/-- `randchar` (`file_utils.cpp:15-21`) when `rand()` returns `r`. -/
def randChar (r : Nat) : Except Err UInt8 :=
  let maxIndex := charset.length - 1
  match charset[r % maxIndex]? with
  | some c => .ok c
  | none => .error .ub

/-- `gen_rand_str` (`file_utils.cpp:14-25`) when `calls` numbers have been drawn before. -/
def genRandStr (rand : Nat → Nat) (calls : Nat) : Nat → Except Err Str
  | 0 => .ok []
  | n + 1 => do
      let c ← randChar (rand calls)
      let s ← genRandStr rand (calls + 1) n
      .ok (c :: s)

/-- `dir / name` of `std::filesystem::path`: an absolute right operand replaces the left one, and a separator is put in unless
there is one. -/
def joinPath (dir name : Str) : Str :=
  if name.head? = some 47 then name
  else if dir = [] ∨ dir.getLast? = some 47 then dir ++ name
  else dir ++ 47 :: name

/-- `file_nym` (`file_utils.cpp:36-41`). -/
def fileNym (pre randStr ext : Str) : Str :=
  if ext.length > 0 ∧ ext.findIdx? (· = 46) ≠ some 0 then pre ++ randStr ++ lit "." ++ ext
  else pre ++ randStr ++ ext

/-- What `gen_temp_path` keeps between calls: the vector `gend_paths`, how many handlers it has registered with `std::atexit`,
how many random numbers have been drawn. -/
structure TempState where
  gend : List Str
  handlers : Nat
  calls : Nat

/-- Before the first call. -/
def TempState.initial : TempState := ⟨[], 0, 0⟩

/-- The loop of `gen_temp_path` (`file_utils.cpp:34-43`): the name found and how many numbers have been drawn. -/
def tempLoop (dir : Str) (rand : Nat → Nat) (fs : Files) (pre ext : Str) : Nat → Nat → Except Err (Str × Nat)
  | 0, _ => .error .diverge
  | fuel + 1, calls => do
      let randStr ← genRandStr rand calls 10
      let tempNym := joinPath dir (fileNym pre randStr ext)
      if (fs.read tempNym).isSome then tempLoop dir rand fs pre ext fuel (calls + 10)
      else .ok (tempNym, calls + 10)

/-- `gen_temp_path` (`file_utils.cpp:27-57`). -/
def genTempPath (dir : Str) (rand : Nat → Nat) (fuel : Nat) (fs : Files) (pre ext : Str) (st : TempState) :
    Except Err (Str × TempState) := do
  let (tempNym, calls) ← tempLoop dir rand fs pre ext fuel st.calls
  let gend := st.gend ++ [tempNym]
  .ok (tempNym, ⟨gend, if gend.length = 1 then st.handlers + 1 else st.handlers, calls⟩)

/-- `fs::remove` of a file. -/
def Files.remove (fs : Files) (path : Str) : Files := { fs with read := fun p => if p = path then none else fs.read p }

/-- The handler (`file_utils.cpp:47-53`). -/
def removeAll (fs : Files) : List Str → Files
  | [] => fs
  | p :: ps => if (fs.read p).isSome then removeAll (fs.remove p) ps else removeAll fs ps

/-- The end of the program: every registered handler runs. -/
def atExit (st : TempState) (fs : Files) : Nat → Files
  | 0 => fs
  | n + 1 => atExit st (removeAll fs st.gend) n

/-- One run of `restores_dawg` with its temporary file (`test_protobuf_serializer.cpp:21-35`).  The test builds the dictionary
before it asks for the name; neither depends on the other. -/
def testRestores (sgn : Bool) (addr : Nat → Nat) (dir : Str) (rand : Nat → Nat) (fuel : Nat) (terms : List Str) (fs : Files)
    (h : Heap) (st : TempState) : Except Stop (Files × Heap × TempState) := do
  let (path, st) ← use (genTempPath dir rand fuel fs (lit "liblevenshtein-") (lit ".pb") st)
  let (fs, h) ← testSerializer sgn addr fuel terms path fs h
  .ok (fs, h, st)

/-- RapidCheck runs the test once per generated set of terms. -/
def testRestoresAll (sgn : Bool) (addr : Nat → Nat) (dir : Str) (rand : Nat → Nat) (fuel : Nat) :
    List (List Str) → Files → Heap → TempState → Except Stop (Files × Heap × TempState)
  | [], fs, h, st => .ok (fs, h, st)
  | terms :: rest, fs, h, st => do
      let (fs, h, st) ← testRestores sgn addr dir rand fuel terms fs h st
      testRestoresAll sgn addr dir rand fuel rest fs h st

/-! ### `rapidcheck_parser.cpp` -/

/-- One of the statements of `RapidCheckParser::parse`. -/
def putSetting (config : Str → Option Str) (key out : Str) : Str :=
  match config key with
  | some v => out ++ key ++ lit "=" ++ v ++ lit " "
  | none => out

/-- The keys in the order of `RapidCheckParser::parse`. -/
def settingKeys : List Str :=
  [lit "seed", lit "max_success", lit "max_size", lit "max_discard_ratio", lit "noshrink", lit "verbose_progress",
    lit "verbose_shrinking", lit "reproduce"]

/-- `RapidCheckParser::parse` (`rapidcheck_parser.cpp:17-57`); the eight `if`s are alike. -/
def parseSettings (config : Str → Option Str) : Str := settingKeys.foldl (fun out key => putSetting config key out) []

/-- What `init_rapidcheck` puts into `RC_PARAMS` (`rapidcheck_parser.cpp:59-70`): a C string. -/
def rcParams (config : Str → Option Str) : Str := (parseSettings config).takeWhile (· ≠ 0)

end Lev
