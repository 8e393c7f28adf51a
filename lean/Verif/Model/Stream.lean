import Verif.Model.Text
import Verif.Model.Iter
import Verif.Model.Lifetime

/-!
# The five `operator<<` on a stream with settings

`dawg_node.cpp:77-89`, `dawg.cpp:67-70`, `prefix.cpp:40-45`, `intersection.cpp:31-37` and `distance/symmetric_pair.cpp:23-28` on a
`std::ostream` that may have a field width, a fill character and an adjustment, prints numbers in its own way, takes only so many
more bytes and may have failed before.  (In `Verif/Model/Text.lean`, `prefixStr` and `interStr` the stream has no settings and never
fails.)

Simplifications: no exceptions are enabled in the stream (the default); `failbit` and `badbit` are one flag.
-/

namespace Lev

/-- A `std::ostream`. -/
structure OStream where
  /-- what the buffer has taken -/
  text : Str
  /-- `width()` -/
  width : Nat
  /-- `fill()` -/
  fill : UInt8
  /-- `(flags() & adjustfield) == left` -/
  left : Bool
  /-- how a `std::size_t` is printed: the base and the grouping of digits -/
  num : Nat → Str
  /-- how a pointer is printed -/
  ptr : Nat → Str
  /-- how many more bytes the buffer takes, if there is a limit -/
  room : Option Nat
  /-- `!good()` -/
  bad : Bool

namespace OStream

/-- `rdbuf()->sputn(s, n)`; the stream fails unless all is taken. -/
def write (o : OStream) (s : Str) : OStream :=
  match o.room with
  | none => { o with text := o.text ++ s }
  | some k =>
      if s.length ≤ k then { o with text := o.text ++ s, room := some (k - s.length) }
      else { o with text := o.text ++ s.take k, room := some 0, bad := true }

/-- `out << s` for a `const char *`, a `char` or a `std::string` as in the C++ standard ([ostream.formatted], [string.io]): nothing if
the stream has failed; otherwise the text with the padding on one side, and the width is 0 afterwards. -/
def insert (o : OStream) (s : Str) : OStream :=
  if o.bad then o
  else
    let padding := List.replicate (o.width - s.length) o.fill
    let o1 := if o.left then o else o.write padding
    let o2 := if o1.bad then o1 else o1.write s
    let o3 := if o.left && !o2.bad then o2.write padding else o2
    { o3 with width := 0 }

end OStream

/-- The calls of the lambda (`dawg_node.cpp:80-86`). -/
def streamEdges (index : Nat) (out : OStream) : List (UInt8 × Nat) → OStream
  | [] => out
  | (label, _) :: es =>
      let out := if index > 0 then out.insert (lit ", ") else out
      streamEdges (index + 1) (((out.insert (lit "'")).insert [label]).insert (lit "':DawgNode{...}")) es

/-- `operator<<(std::ostream &, const DawgNode &)` (`dawg_node.cpp:77-89`). -/
def streamNode (out : OStream) (nd : DNode) : OStream :=
  let out := ((out.insert (lit "DawgNode{is_final=")).insert (if nd.final then lit "true" else lit "false")).insert
    (lit ", edges={")
  (streamEdges 0 out nd.edges).insert (lit "}}")

/-- `operator<<(std::ostream &, const Dawg &)` (`dawg.cpp:67-70`).  Numbers are padded like strings when there is a width. -/
def streamDawg (out : OStream) (size root : Nat) : OStream :=
  ((((out.insert (lit "Dawg{size=")).insert (out.num size)).insert (lit ", root=")).insert (out.ptr root)).insert (lit "}")

/-- `operator<<(std::ostream &, const SymmetricPair &)` (`distance/symmetric_pair.cpp:23-28`). -/
def streamPair (out : OStream) (p : SymPair) : OStream :=
  ((((out.insert (lit "SymmetricPair{first=\"")).insert p.first).insert (lit "\", second=\"")).insert p.second).insert (lit "\"}")

/-- `operator<<(std::ostream &, const Prefix &)` (`prefix.cpp:40-45`). -/
def streamPrefix (mem : PMem) : Nat → OStream → Nat → Except Err OStream
  | 0, _, _ => .error .diverge
  | fuel + 1, out, a =>
      match mem a with
      | none => .error .ub
      | some p =>
          if p.parent = 0 then .ok out
          else do
            let out ← streamPrefix mem fuel out p.parent
            .ok (out.insert [p.label])

/-- `operator<<(std::ostream &, const Intersection &)` (`intersection.cpp:31-37`). -/
def streamInter {S : Type} (im : IMem S) : Nat → OStream → Nat → Except Err OStream
  | 0, _, _ => .error .diverge
  | fuel + 1, out, a => do
      let c ← getInter im a
      if c.parent = 0 then .ok out
      else do
        let out ← streamInter im fuel out c.parent
        .ok (out.insert [c.label])

end Lev
