import Verif.Model.Demo
import Verif.Spec.Message

/-!
# What the demo program should do
-/

namespace Lev.Spec

/-- A text: lines that end with a newline, then what follows the last newline. -/
def textOf (ls : List Str) (last : Str) : List UInt8 := ls.flatMap (· ++ [10]) ++ last

/-- No newline inside. -/
def NoNewline (l : Str) : Prop := 10 ∉ l

/-- An option with its value. -/
inductive CliItem where
  | dict (p : Str)
  | ser (p : Str)
  | alg (A : Algorithm)
  | dist (s : Str)
deriving DecidableEq, Repr

/-- How it is written on the command line. -/
def CliItem.render : CliItem → List Str
  | .dict p => [lit "--dictionary-path", p]
  | .ser p => [lit "--serialization-path", p]
  | .alg .standard => [lit "--standard"]
  | .alg .transposition => [lit "--transposition"]
  | .alg .mergeAndSplit => [lit "--merge-and-split"]
  | .dist s => [lit "--max-distance", s]

def CliItem.dict? : CliItem → Option Str
  | .dict p => some p
  | _ => none

def CliItem.ser? : CliItem → Option Str
  | .ser p => some p
  | _ => none

def CliItem.alg? : CliItem → Option Algorithm
  | .alg A => some A
  | _ => none

def CliItem.dist? : CliItem → Option Str
  | .dist s => some s
  | _ => none

/-- The decimal numeral of a number, in ASCII. -/
def numeral (n : Nat) : Str := if n < 10 then [UInt8.ofNat (48 + n)] else numeral (n / 10) ++ [UInt8.ofNat (48 + n % 10)]
termination_by n
decreasing_by omega

/-- A sign that may precede a number. -/
def Sign (s : Str) : Prop := s = [] ∨ s = lit "+" ∨ s = lit "-"

/-- White space: blank, tabulators, line feed, form feed, carriage return. -/
def Blank (s : Str) : Prop := ∀ c ∈ s, c = 32 ∨ c = 9 ∨ c = 10 ∨ c = 11 ∨ c = 12 ∨ c = 13

/-- The text does not begin with a decimal digit. -/
def NoDigit (s : Str) : Prop := ∀ c : UInt8, s.head? = some c → c.toNat < 48 ∨ 57 < c.toNat

/-- What extracting a `std::size_t` from a text gives, where it was `old`: nothing but white space leaves it; a number,
possibly with leading zeros and followed by anything, is that number if it fits; a negative one is taken modulo 2^64;
anything else gives 0. -/
inductive ReadsSize (old : Nat) : Str → Nat → Prop
  | blank {s : Str} : Blank s → ReadsSize old s old
  | nothing {sp sign junk : Str} : Blank sp → Sign sign → NoDigit junk →
      (sign = [] → ∃ c cs, junk = c :: cs ∧ ¬ Blank [c] ∧ ¬ Sign [c]) → ReadsSize old (sp ++ sign ++ junk) 0
  | number {sp sign junk : Str} {k n : Nat} : Blank sp → Sign sign → NoDigit junk →
      ReadsSize old (sp ++ sign ++ (List.replicate k 48 ++ numeral n) ++ junk)
        (if 2 ^ 64 ≤ n then 2 ^ 64 - 1 else if sign = lit "-" then (2 ^ 64 - n) % 2 ^ 64 else n)

/-- The words with a meaning. -/
def cliWords : List Str :=
  ["-h", "--help", "--dictionary-path", "--serialization-path", "--standard", "--transposition", "--merge-and-split",
    "--max-distance"].map lit

/-- The arguments end the program with a code: help is asked for, a value is missing, the file with the terms does not
exist, the argument has no meaning. -/
inductive CliRefused (ex : Str → Bool) : List Str → Nat → Prop
  | help {w : Str} {rest : List Str} : w = lit "-h" ∨ w = lit "--help" → CliRefused ex (w :: rest) 0
  | missing {w : Str} : w ∈ [lit "--dictionary-path", lit "--serialization-path", lit "--max-distance"] →
      CliRefused ex [w] 2
  | noFile {p : Str} {rest : List Str} : ex p = false → CliRefused ex (lit "--dictionary-path" :: p :: rest) 3
  | unknown {w : Str} {rest : List Str} : w ∉ cliWords → CliRefused ex (w :: rest) 4

/-- The lines of a file; a last line without a newline counts unless it is empty. -/
def Lines (bytes : List UInt8) (terms : List Str) : Prop :=
  ∃ ls last, bytes = textOf ls last ∧ (∀ l ∈ ls, NoNewline l) ∧ NoNewline last ∧
    terms = ls ++ if last = [] then [] else [last]

/-- The bytes are those of a dictionary with the terms `T`: a message without dangling ids, without repeated edges, without
cycles, without unreachable nodes, whose terms have fewer than 2^62 characters, and not too large to be written again.
`size` is the number of terms it says it has. -/
def Stored (bytes : List UInt8) (size : Nat) (T : Str → Prop) : Prop :=
  ∃ (msg : Msg) (rank : Nat → Nat), decodeMsg bytes = some msg ∧ WellFormed msg ∧
    (∀ e ∈ msg.edges, rank e.target < rank e.source) ∧ rank msg.rootId < 2 ^ 62 ∧
    (∀ x ∈ msg.nodeIds, MsgReaches msg msg.rootId x) ∧ msg.size = size ∧ size < 2 ^ 64 ∧
    20 * msg.nodeIds.length + 35 * msg.edges.length + 44 ≤ 2 ^ 31 - 1 ∧
    ∀ t, MsgAccepts msg msg.rootId t ↔ T t

end Lev.Spec
