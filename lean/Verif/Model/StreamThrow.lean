import Verif.Model.Stream

/-!
# The five `operator<<` on a stream that throws

As in `Verif/Model/Stream.lean`, but `out.exceptions(std::ios::badbit)` was called: an insertion that fails throws `std::ios_base::failure`,
which leaves `operator<<` (none of the five catches anything).  `.error o`: the exception was thrown, and `o` is the stream as it was left.

Simplifications: as in `Verif/Model/Stream.lean`; a stream that has failed has `badbit` set.  As in libstdc++ the width is not reset by an
insertion that throws.
-/

namespace Lev

/-- `out << s`: the attempt to print to a stream that has failed throws as well (`setstate(failbit)` while `badbit` is set). -/
def OStream.insertT (o : OStream) (s : Str) : Except OStream OStream :=
  if o.bad then .error o
  else if (o.insert s).bad then .error { o.insert s with width := o.width }
  else .ok (o.insert s)

/-- The calls of the lambda (`dawg_node.cpp:80-86`). -/
def streamEdgesT (index : Nat) (out : OStream) : List (UInt8 × Nat) → Except OStream OStream
  | [] => .ok out
  | (label, _) :: es => do
      let out ← if index > 0 then out.insertT (lit ", ") else .ok out
      let out ← out.insertT (lit "'")
      let out ← out.insertT [label]
      let out ← out.insertT (lit "':DawgNode{...}")
      streamEdgesT (index + 1) out es

/-- `operator<<(std::ostream &, const DawgNode &)` (`dawg_node.cpp:77-89`). -/
def streamNodeT (out : OStream) (nd : DNode) : Except OStream OStream := do
  let out ← out.insertT (lit "DawgNode{is_final=")
  let out ← out.insertT (if nd.final then lit "true" else lit "false")
  let out ← out.insertT (lit ", edges={")
  let out ← streamEdgesT 0 out nd.edges
  out.insertT (lit "}}")

/-- `operator<<(std::ostream &, const Dawg &)` (`dawg.cpp:67-70`). -/
def streamDawgT (out : OStream) (size root : Nat) : Except OStream OStream := do
  let num := out.num
  let ptr := out.ptr
  let out ← out.insertT (lit "Dawg{size=")
  let out ← out.insertT (num size)
  let out ← out.insertT (lit ", root=")
  let out ← out.insertT (ptr root)
  out.insertT (lit "}")

/-- `operator<<(std::ostream &, const SymmetricPair &)` (`distance/symmetric_pair.cpp:23-28`). -/
def streamPairT (out : OStream) (p : SymPair) : Except OStream OStream := do
  let out ← out.insertT (lit "SymmetricPair{first=\"")
  let out ← out.insertT p.first
  let out ← out.insertT (lit "\", second=\"")
  let out ← out.insertT p.second
  out.insertT (lit "\"}")

/-- `operator<<(std::ostream &, const Prefix &)` (`prefix.cpp:40-45`). -/
def streamPrefixT (mem : PMem) : Nat → OStream → Nat → Except Err (Except OStream OStream)
  | 0, _, _ => .error .diverge
  | fuel + 1, out, a =>
      match mem a with
      | none => .error .ub
      | some p =>
          if p.parent = 0 then .ok (.ok out)
          else do
            let r ← streamPrefixT mem fuel out p.parent
            .ok (r.bind fun out => out.insertT [p.label])

/-- `operator<<(std::ostream &, const Intersection &)` (`intersection.cpp:31-37`). -/
def streamInterT {S : Type} (im : IMem S) : Nat → OStream → Nat → Except Err (Except OStream OStream)
  | 0, _, _ => .error .diverge
  | fuel + 1, out, a => do
      let c ← getInter im a
      if c.parent = 0 then .ok (.ok out)
      else do
        let r ← streamInterT im fuel out c.parent
        .ok (r.bind fun out => out.insertT [c.label])

end Lev
