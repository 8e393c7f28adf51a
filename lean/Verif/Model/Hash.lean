/-!
# MurmurHash64A and byte strings

Model of `/repo/third-party/MurmurHash2.cpp:98-139` on a little-endian machine.
A C++ `std::string` is a list of bytes.  `len` is the list length; the C++ parameter is an `int`, so
the model covers keys shorter than `2^31` bytes.
-/

namespace Lev

/-- A `std::string`: a sequence of bytes (`char` seen as an unsigned byte). -/
abbrev Str := List UInt8

/-- The mixing constant `m` (`MurmurHash2.cpp:100`). -/
def murmurM : UInt64 := 0xc6a4a7935bd1e995

/-- Little-endian value of a block of at most eight bytes (`MurmurHash2.cpp:110` and `:122-130`). -/
def leWord : List UInt8 → UInt64
  | [] => 0
  | b :: bs => b.toUInt64 ^^^ (leWord bs <<< 8)

/-- One round on a full eight-byte block (`MurmurHash2.cpp:110-117`). -/
def murmurRound (h k : UInt64) : UInt64 :=
  let k := k * murmurM
  let k := k ^^^ (k >>> 47)
  let k := k * murmurM
  (h ^^^ k) * murmurM

/-- The loop over full blocks followed by the tail `switch` (`MurmurHash2.cpp:108-132`), with what is done to the code `h` in
a round and at the end. -/
def murmurBlocks {α : Type} (round last : α → List UInt8 → α) : List UInt8 → α → α
  | b0 :: b1 :: b2 :: b3 :: b4 :: b5 :: b6 :: b7 :: rest, h =>
      murmurBlocks round last rest (round h [b0, b1, b2, b3, b4, b5, b6, b7])
  | [], h => h
  | tail, h => last h tail

/-- The code after the loop and the `switch` (`MurmurHash2.cpp:108-132`). -/
def murmurBody (key : List UInt8) (h : UInt64) : UInt64 :=
  murmurBlocks (fun h block => murmurRound h (leWord block)) (fun h tail => (h ^^^ leWord tail) * murmurM) key h

/-- `MurmurHash64A` (`MurmurHash2.cpp:98-139`). -/
def murmur64A (key : List UInt8) (seed : UInt64) : UInt64 :=
  let h := seed ^^^ (UInt64.ofNat key.length * murmurM)
  let h := murmurBody key h
  let h := h ^^^ (h >>> 47)
  let h := h * murmurM
  h ^^^ (h >>> 47)

end Lev
