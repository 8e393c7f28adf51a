import Verif.Model.Basic
import Verif.Model.Distance

/-!
# Hashing strings of any length

`MurmurHash64A` takes the length of its key as an `int` (`/repo/third-party/MurmurHash2.cpp:98`), and
`std::hash<SymmetricPair>` converts `std::string::length()` to it (`/repo/src/liblevenshtein/distance/symmetric_pair.cpp:40-42`).
Here the function is modelled with that parameter and with the array of bytes it reads from; `Verif/Model/Hash.lean` is the
function for strings below `2^31` bytes.  Conversions to `int` keep the lowest 32 bits (as C++20 demands).
-/

namespace Lev

/-- `(int)n` for a `std::size_t` (`symmetric_pair.cpp:40,41`). -/
def toInt32 (n : Nat) : Int := if n % 2 ^ 32 < 2 ^ 31 then (n % 2 ^ 32 : Nat) else (n % 2 ^ 32 : Nat) - (2 ^ 32 : Int)

/-- `n` bytes from index `i` of the array `buf`; it is undefined behaviour to read beyond its end. -/
def readBytes (buf : List UInt8) (i : Nat) : Nat → Except Err (List UInt8)
  | 0 => .ok []
  | n + 1 => do
      match buf[i]? with
      | none => .error .ub
      | some b => do
          let bs ← readBytes buf (i + 1) n
          .ok (b :: bs)

/-- The loop over the words of eight bytes (`MurmurHash2.cpp:108-118`): `n` words are left, the next one is at index `i`. -/
def hashWords {α : Type} (round : α → List UInt8 → α) (buf : List UInt8) : Nat → Nat → α → Except Err α
  | 0, _, h => .ok h
  | n + 1, i, h => do
      let k ← readBytes buf i 8
      hashWords round buf n (i + 8) (round h k)

/-- `MurmurHash64A(key, len, seed)` for a key that points to the beginning of the array `buf` (`MurmurHash2.cpp:98-139`).
`len * m` is computed in `uint64_t`.  `len / 8` rounds towards zero; `data + len / 8` is undefined behaviour if that is
negative (a pointer before the beginning of the array), and the loop would run away from `end`.  `len & 7` is the remainder
in two's complement. -/
def murmurInt (buf : List UInt8) (len : Int) (seed : UInt64) : Except Err UInt64 :=
  let h := seed ^^^ (UInt64.ofInt len * murmurM)
  if len.tdiv 8 < 0 then .error .ub
  else do
    let words := (len.tdiv 8).toNat
    let h ← hashWords (fun h k => murmurRound h (leWord k)) buf words 0 h
    let tail ← readBytes buf (8 * words) (len.emod 8).toNat
    let h := if tail = [] then h else (h ^^^ leWord tail) * murmurM
    let h := h ^^^ (h >>> 47)
    let h := h * murmurM
    .ok (h ^^^ (h >>> 47))

/-- `MurmurHash64A(s.c_str(), (int)s.length(), seed)`; `c_str()` points to the characters and a null character. -/
def hashString (s : Str) (seed : UInt64) : Except Err UInt64 := murmurInt (s ++ [0]) (toInt32 s.length) seed

/-- `std::hash<SymmetricPair>` (`symmetric_pair.cpp:36-43`). -/
def SymPair.hashFull (p : SymPair) : Except Err UInt64 := do
  let h ← hashString p.first 0xDEADBEEF
  hashString p.second h

/-- The map of a `MemoizedDistance` with the hash codes of its keys. -/
abbrev HMemo := List (UInt64 × SymPair × Nat)

/-- `memo.find(key)` for a key with hash code `c` (`memoized_distance.cpp:11-16`). -/
def HMemo.get : HMemo → UInt64 → SymPair → Option Nat
  | [], _, _ => none
  | (e, k, d) :: m, c, key => if e == c && SymPair.eq k key then some d else HMemo.get m c key

/-- `memo[key] = distance` for a key with hash code `c` (`memoized_distance.cpp:22`). -/
def HMemo.set : HMemo → UInt64 → SymPair → Nat → HMemo
  | [], c, key, d => [(c, key, d)]
  | (e, k, x) :: m, c, key, d =>
      if e == c && SymPair.eq k key then (e, k, d) :: m else (e, k, x) :: HMemo.set m c key d

/-- A run on an object whose map is `m`; every access of the map computes the hash code of the key. -/
def Prog.runFull {R : Type} : Prog R → HMemo → Except Err (R × HMemo)
  | .ret r, m => .ok (r, m)
  | .get key k, m =>
      match key.hashFull with
      | .error e => .error e
      | .ok c => (k (m.get c key)).runFull m
  | .set key d k, m =>
      match key.hashFull with
      | .error e => .error e
      | .ok c => k.runFull (m.set c key d)

end Lev
