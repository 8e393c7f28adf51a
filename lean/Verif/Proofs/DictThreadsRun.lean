import Verif.Model.DictThreads

/-!
The programs of `Verif/Model/DictThreads.lean`, run alone, do what the functions of `Verif/Model/Dawg.lean` do.
-/

namespace Lev

namespace NThr

section
variable (addr : Nat → Nat)

/-- The outcome of a function that only reads. -/
def onR {β : Type} (h : Heap) (e : Except Err β) : Except Err (β × Heap) := e.bind fun x => .ok (x, h)

/-- The outcome of a function that returns nothing. -/
def onH (e : Except Err Heap) : Except Err (Unit × Heap) := e.bind fun h => .ok ((), h)

/-- The outcome of a function that returns something. -/
def onB {β : Type} (e : Except Err (Heap × β)) : Except Err (β × Heap) := e.bind fun x => .ok (x.2, x.1)

theorem ebind_assoc {α β γ : Type} (e : Except Err α) (f : α → Except Err β) (g : β → Except Err γ) :
    (e.bind f).bind g = e.bind fun x => (f x).bind g := by cases e <;> rfl

theorem ebind_ok {α β : Type} (x : α) (f : α → Except Err β) : (Except.ok x : Except Err α).bind f = f x := rfl
theorem ebind_error {α β : Type} (e : Err) (f : α → Except Err β) : (Except.error e : Except Err α).bind f = .error e := rfl
theorem ebind_ite {α β : Type} (c : Prop) [Decidable c] (a b : Except Err α) (f : α → Except Err β) :
    (if c then a else b).bind f = if c then a.bind f else b.bind f := by split <;> rfl

theorem run_bind {α β : Type} (p : NProg α) (f : α → NProg β) (h : Heap) :
    (p.bind f).run addr h = (p.run addr h).bind fun x => (f x.1).run addr x.2 := by
  induction p generalizing h with
  | ret x => rfl
  | fail e => rfl
  | read a k ih => simp only [NProg.bind, NProg.run, ebind_assoc, ih]
  | write a nd k ih => simp only [NProg.bind, NProg.run, ebind_assoc, ih]
  | new k ih => simp only [NProg.bind, NProg.run, ih]
  | free a k ih => simp only [NProg.bind, NProg.run, ebind_assoc, ih]

theorem run_ret {α : Type} (x : α) (h : Heap) : (NProg.ret x).run addr h = .ok (x, h) := rfl
theorem run_fail {α : Type} (e : Err) (h : Heap) : (NProg.fail e : NProg α).run addr h = .error e := rfl
theorem run_ite {α : Type} (c : Prop) [Decidable c] (p q : NProg α) (h : Heap) :
    (if c then p else q).run addr h = if c then p.run addr h else q.run addr h := by split <;> rfl
theorem run_deref (a : Nat) (h : Heap) : (NThr.deref a).run addr h = onR h (Lev.deref h.mem a) := rfl
theorem run_write (a : Nat) (nd : DNode) (h : Heap) :
    (NThr.write a nd).run addr h = (Lev.deref h.mem a).bind fun _ => .ok ((), { h with mem := h.mem.set a (some nd) }) := rfl
theorem run_newNode (h : Heap) : NThr.newNode.run addr h = .ok (Lev.newNode addr h) := rfl

/-- Unfolds programs and functions into accesses. -/
local macro "runs" "[" ts:Lean.Parser.Tactic.simpLemma,* "]" : tactic =>
  `(tactic| simp only [bind, pure, Except.pure, run_bind, run_ret, run_fail, run_ite, run_deref, run_write, run_newNode,
      onR, onH, onB, ebind_assoc, ebind_ok, ebind_error, ebind_ite, $ts,*])

theorem run_edgesEq {mem : Mem} {eq : DNode → DNode → NProg Bool} {eq' : DNode → DNode → Except Err Bool} (h : Heap)
    (hm : h.mem = mem) (heq : ∀ x y, (eq x y).run addr h = onR h (eq' x y)) (other : DNode) (es : List (UInt8 × Nat)) :
    (NThr.edgesEq eq other es).run addr h = onR h (Lev.edgesEq mem eq' other es) := by
  subst hm
  induction es with
  | nil => rfl
  | cons e es ih =>
    simp only [onR] at ih heq
    runs [NThr.edgesEq, Lev.edgesEq, heq, ih]

theorem run_nodeEq (fuel : Nat) (x y : DNode) (h : Heap) :
    (NThr.nodeEq fuel x y).run addr h = onR h (Lev.nodeEq h.mem fuel x y) := by
  induction fuel generalizing x y with
  | zero => rfl
  | succ fuel ih =>
    simp only [NThr.nodeEq, Lev.nodeEq, run_ite, run_edgesEq addr h rfl ih]
    runs []

theorem run_edgesHash {mem : Mem} {hash : DNode → NProg UInt64} {hash' : DNode → Except Err UInt64} (h : Heap)
    (hm : h.mem = mem) (hh : ∀ x, (hash x).run addr h = onR h (hash' x)) (es : List (UInt8 × Nat)) (k : UInt64) :
    (NThr.edgesHash hash es k).run addr h = onR h (Lev.edgesHash mem hash' es k) := by
  subst hm
  induction es generalizing k with
  | nil => rfl
  | cons e es ih =>
    simp only [onR] at ih hh
    runs [NThr.edgesHash, Lev.edgesHash, hh, ih]

theorem run_nodeHash (fuel : Nat) (x : DNode) (h : Heap) :
    (NThr.nodeHash fuel x).run addr h = onR h (Lev.nodeHash h.mem fuel x) := by
  induction fuel generalizing x with
  | zero => rfl
  | succ fuel ih =>
    simp only [NThr.nodeHash, Lev.nodeHash, bind, run_bind, run_edgesHash addr h rfl ih]
    runs []

theorem run_deleteNode (a : Nat) (h : Heap) : (NThr.deleteNode a).run addr h = onH (Lev.deleteNode a h) := by
  simp only [NThr.deleteNode, Lev.deleteNode, run_ite, NProg.run, Lev.deref]
  split
  · rfl
  · cases h.mem a <;> rfl

theorem deref_set {mem : Mem} {a : Nat} {nd : DNode} : Lev.deref (mem.set a (some nd)) a = .ok nd := by
  simp [Lev.deref, Mem.set]

/-- Reading a node twice shows the same. -/
theorem deref_twice {α : Type} {mem : Mem} {a : Nat} (f : DNode → DNode → Except Err α) :
    ((Lev.deref mem a).bind fun x => (Lev.deref mem a).bind (f x)) = (Lev.deref mem a).bind fun x => f x x := by
  cases Lev.deref mem a <;> rfl

theorem run_setFinal (a : Nat) (h : Heap) : (NThr.setFinal a).run addr h = onH (Lev.setFinal a h) := by
  runs [NThr.setFinal, Lev.setFinal, deref_twice]

theorem run_addEdge (sgn : Bool) (source : Nat) (label : UInt8) (target : Nat) (h : Heap) :
    (NThr.addEdge sgn source label target).run addr h = onH (Lev.addEdge sgn source label target h) := by
  runs [NThr.addEdge, Lev.addEdge, run_deleteNode, deref_twice]

theorem run_regFind (fuel : Nat) (hash : UInt64) (key : DNode) (reg : List RegEntry) (h : Heap) :
    (NThr.regFind fuel hash key reg).run addr h = onR h (Lev.regFind h.mem fuel hash key reg) := by
  induction reg with
  | nil => rfl
  | cons e es ih =>
    simp only [onR] at ih
    runs [NThr.regFind, Lev.regFind, run_nodeEq, ih]

theorem run_minimizedNode (fuel key : Nat) (d : SDawg) (h : Heap) :
    (NThr.minimizedNode fuel key d).run addr h = onR h (Lev.minimizedNode fuel key h d) := by
  cases hm : d.minimized <;> runs [NThr.minimizedNode, Lev.minimizedNode, hm, run_nodeHash, run_regFind]

theorem run_regSet (fuel : Nat) (hash : UInt64) (key : DNode) (val : Nat) (reg : List RegEntry) (h : Heap) :
    (NThr.regSet fuel hash key val reg).run addr h = onR h (Lev.regSet h.mem fuel hash key val reg) := by
  induction reg with
  | nil => rfl
  | cons e es ih =>
    simp only [onR] at ih
    runs [NThr.regSet, Lev.regSet, run_nodeEq, ih]

theorem run_register (fuel target : Nat) (d : SDawg) (h : Heap) :
    (NThr.register fuel target d).run addr h = onR h (Lev.register fuel target h d) := by
  cases hm : d.minimized <;> runs [NThr.register, Lev.register, hm, run_nodeHash, run_regSet]

theorem run_minimizeStep (sgn : Bool) (fuel : Nat) (d : SDawg) (h : Heap) :
    (NThr.minimizeStep sgn fuel d).run addr h = onB (Lev.minimizeStep sgn fuel h d) := by
  rcases hu : d.unchecked with _ | _ | ⟨t, rest⟩
  · runs [NThr.minimizeStep, Lev.minimizeStep, hu]
  · runs [NThr.minimizeStep, Lev.minimizeStep, hu]
  · runs [NThr.minimizeStep, Lev.minimizeStep, hu, run_minimizedNode]
    cases Lev.minimizedNode fuel t.target h { d with unchecked := some rest } with
    | error e => rfl
    | ok r =>
      simp only [ebind_ok]
      cases r with
      | some e => runs [run_addEdge]
      | none => runs [run_addEdge, run_register]

theorem run_minimizeLoop (sgn : Bool) (fuel k : Nat) (d : SDawg) (h : Heap) :
    (NThr.minimizeLoop sgn fuel k d).run addr h = onB (Lev.minimizeLoop sgn fuel k h d) := by
  induction k generalizing d h with
  | zero => rfl
  | succ k ih => runs [NThr.minimizeLoop, Lev.minimizeLoop, run_minimizeStep, ih]

theorem run_minimize (sgn : Bool) (fuel lower : Nat) (d : SDawg) (h : Heap) :
    (NThr.minimize sgn fuel lower d).run addr h = onB (Lev.minimize sgn fuel lower h d) := by
  cases hu : d.unchecked with
  | none => runs [NThr.minimize, Lev.minimize, hu]
  | some st => simp only [NThr.minimize, Lev.minimize, hu]; exact run_minimizeLoop ..

theorem run_pushSuffix (source : Nat) (rest : Str) (d : SDawg) (h : Heap) :
    (NThr.pushSuffix source rest d).run addr h =
      (Lev.pushSuffix addr source rest h d).bind fun r => .ok ((r.1, r.2.2), r.2.1) := by
  induction rest generalizing source d h with
  | nil => rfl
  | cons c rest ih =>
    rcases hf : d.floating with _ | fl <;> rcases hu : d.unchecked with _ | st <;>
      runs [NThr.pushSuffix, Lev.pushSuffix, hf, hu, ih]

theorem run_suffixSource (d : SDawg) (h : Heap) :
    (NThr.suffixSource d).run addr h = onR h (Lev.suffixSource d) := by
  rcases hu : d.unchecked with _ | _ | ⟨t, rest⟩ <;> runs [NThr.suffixSource, Lev.suffixSource, hu]

theorem run_addTerm (sgn : Bool) (fuel : Nat) (term : Str) (d : SDawg) (h : Heap) :
    (NThr.addTerm sgn fuel term d).run addr h =
      (Lev.addTerm sgn addr fuel term h d).bind fun r => .ok ((r.1, r.2.2), r.2.1) := by
  runs [NThr.addTerm, Lev.addTerm, run_setFinal, run_minimize, run_suffixSource, run_pushSuffix]

theorem run_finishDawg (sgn : Bool) (fuel : Nat) (d : SDawg) (h : Heap) :
    (NThr.finishDawg sgn fuel d).run addr h = onB (Lev.finishDawg sgn fuel h d) := run_minimize ..

theorem run_allNodesLoop (fuel : Nat) (pending nodes : List Nat) (h : Heap) :
    (NThr.allNodesLoop fuel pending nodes).run addr h = onR h (Lev.allNodesLoop h.mem fuel pending nodes) := by
  induction fuel generalizing pending nodes with
  | zero => cases pending <;> rfl
  | succ fuel ih =>
    cases pending with
    | nil => rfl
    | cons a pending => runs [NThr.allNodesLoop, Lev.allNodesLoop, ih]

theorem run_allNodes (fuel root : Nat) (h : Heap) :
    (NThr.allNodes fuel root).run addr h = onR h (Lev.allNodes h.mem fuel root) := run_allNodesLoop ..

theorem run_deleteAll (l : List Nat) (h : Heap) : (NThr.deleteAll l).run addr h = onH (Lev.deleteAll l h) := by
  induction l generalizing h with
  | nil => rfl
  | cons a l ih => runs [NThr.deleteAll, Lev.deleteAll, run_deleteNode, ih]

theorem run_cleanUp (fuel : Nat) (d : SDawg) (h : Heap) :
    (NThr.cleanUp fuel d).run addr h = onB (Lev.cleanUp fuel h d) := by
  cases hf : d.floating <;> runs [NThr.cleanUp, Lev.cleanUp, hf, run_allNodes, run_deleteAll]

theorem run_destroyDawg (fuel : Nat) (d : SDawg) (h : Heap) :
    (NThr.destroyDawg fuel d).run addr h = onH (Lev.destroyDawg fuel h d) := by
  runs [NThr.destroyDawg, Lev.destroyDawg, run_cleanUp, run_allNodes, run_deleteAll]

theorem run_buildLoop (sgn : Bool) (fuel : Nat) (terms : List Str) (d : SDawg) (h : Heap) :
    (NThr.buildLoop sgn fuel terms d).run addr h = onB (Lev.buildLoop sgn addr fuel terms h d) := by
  induction terms generalizing d h with
  | nil => rfl
  | cons t terms ih => runs [NThr.buildLoop, Lev.buildLoop, run_addTerm, run_destroyDawg, ih]

/-- The program of `sorted_dawg`, run alone, does what the function does. -/
theorem run_sortedDawg (sgn : Bool) (fuel : Nat) (terms : List Str) (h : Heap) :
    (NThr.sortedDawg sgn fuel terms).run addr h = onB (Lev.sortedDawg sgn addr fuel terms h) := by
  runs [NThr.sortedDawg, Lev.sortedDawg, NThr.newDawg, Lev.newDawg, run_buildLoop]
  congr 1
  funext r
  obtain ⟨h1, r⟩ := r
  cases r with
  | none => rfl
  | some d => runs [run_finishDawg, run_cleanUp]

theorem run_containsLoop (t : Str) (i a : Nat) (h : Heap) :
    (NThr.containsLoop t i a).run addr h = onR h (Lev.containsLoop h.mem t i a) := by
  induction t generalizing i a with
  | nil => rfl
  | cons c t ih => runs [NThr.containsLoop, Lev.containsLoop, ih]

theorem run_containsTerm (root : Nat) (t : Str) (h : Heap) :
    (NThr.containsTerm root t).run addr h = onR h (Lev.containsTerm h.mem root t) := by
  runs [NThr.containsTerm, Lev.containsTerm, run_containsLoop]

end

end NThr

end Lev
