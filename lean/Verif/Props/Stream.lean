import Verif.Model.Stream
import Verif.Props.Text

/-!
# Property C118: printing to a stream with settings

A width that is set before an object is printed applies to the first piece of its text only.
-/

namespace Lev.Spec

open Lev

/-- `s` in a field of width `w`. -/
def InField (w : Nat) (fill : UInt8) (left : Bool) (s : Str) : Str :=
  if left then s ++ List.replicate (w - s.length) fill else List.replicate (w - s.length) fill ++ s

/-- What a stream holds and how it is set after the pieces `ps` were printed one after another: a stream that has failed, or a printing
of nothing, changes nothing.  Otherwise the first piece is in a field, the rest is not; as much of it is taken as there is room for; the
stream has failed exactly if that is not all; the width is 0 and the other settings are as before. -/
def PrintedIn (o : OStream) (ps : List Str) (o' : OStream) : Prop :=
  (o.bad = true ∨ ps = [] → o' = o) ∧
  ∀ p rest, ps = p :: rest → o.bad = false →
    o'.text = o.text ++ (match o.room with
      | none => InField o.width o.fill o.left p ++ rest.flatten
      | some k => (InField o.width o.fill o.left p ++ rest.flatten).take k) ∧
    (o'.bad = true ↔ ∃ k, o.room = some k ∧ k < (InField o.width o.fill o.left p ++ rest.flatten).length) ∧
    o'.room = o.room.map (· - (InField o.width o.fill o.left p ++ rest.flatten).length) ∧
    o'.width = 0 ∧ o'.fill = o.fill ∧ o'.left = o.left ∧ o'.num = o.num ∧ o'.ptr = o.ptr

/-- The characters of `s`, each as a piece. -/
def letters (s : Str) : List Str := s.map fun c => [c]

end Lev.Spec

namespace Lev

open Spec

/-- The stream that `PrintedIn` describes. -/
def OStream.all (o : OStream) (s : Str) : OStream :=
  match o.room with
  | none => { o with text := o.text ++ s, width := 0 }
  | some k => { o with text := o.text ++ s.take k, width := 0, room := some (k - s.length), bad := decide (k < s.length) }

theorem OStream.insert_eq {o : OStream} (h : o.bad = false) (s : Str) :
    o.insert s = o.all (InField o.width o.fill o.left s) := by
  obtain ⟨text, width, fill, left, num, ptr, room, bad⟩ := o
  simp only at h
  subst h
  cases room with
  | none => cases left <;> simp [OStream.insert, OStream.all, OStream.write, InField]
  | some k =>
    cases left
    · simp only [OStream.insert, OStream.all, OStream.write, InField, Bool.false_eq_true, if_false, List.length_append,
        List.length_replicate, Bool.false_and]
      by_cases h1 : width - s.length ≤ k
      · simp only [h1, if_true, Bool.false_eq_true, if_false]
        by_cases h2 : s.length ≤ k - (width - s.length)
        · simp only [h2, if_true]
          have h3 : ¬ k < width - s.length + s.length := by omega
          rw [List.take_of_length_le (by simp; omega)]
          simp [h3, Nat.sub_sub]
        · have h3 : k < width - s.length + s.length := by omega
          simp only [h2, if_false, h3, decide_true, List.take_append, List.length_replicate]
          rw [List.take_of_length_le (l := List.replicate (width - s.length) fill) (by simp; omega)]
          simp; omega
      · have h3 : k < width - s.length + s.length := by omega
        simp only [h1, if_false, if_true, h3, decide_true, List.take_append, List.length_replicate]
        simp; omega
    · simp only [OStream.insert, OStream.all, OStream.write, InField, Bool.false_eq_true, if_false, if_true, List.length_append,
        List.length_replicate, Bool.true_and]
      by_cases h1 : s.length ≤ k
      · simp only [h1, if_true, Bool.not_false]
        by_cases h2 : width - s.length ≤ k - s.length
        · simp only [h2, if_true]
          have h3 : ¬ k < s.length + (width - s.length) := by omega
          rw [List.take_of_length_le (by simp; omega)]
          simp [h3, Nat.sub_sub]
        · have h3 : k < s.length + (width - s.length) := by omega
          simp only [h2, if_false, h3, decide_true, List.take_append]
          rw [List.take_of_length_le (l := s) h1]
          simp; omega
      · have h3 : k < s.length + (width - s.length) := by omega
        simp only [h1, if_false, h3, decide_true, Bool.not_true, Bool.false_eq_true, List.take_append]
        have h4 : k - s.length = 0 := by omega
        simp [h4]; omega

theorem inField_zero (fill : UInt8) (left : Bool) (s : Str) : InField 0 fill left s = s := by
  cases left <;> simp [InField]

theorem OStream.insert_bad {o : OStream} (h : o.bad = true) (s : Str) : o.insert s = o := by simp [OStream.insert, h]

theorem OStream.all_insert (o : OStream) (h : o.bad = false) (s p : Str) : (o.all s).insert p = o.all (s ++ p) := by
  cases hb : (o.all s).bad with
  | true =>
    rw [OStream.insert_bad hb]
    obtain ⟨text, width, fill, left, num, ptr, room, bad⟩ := o
    cases room with
    | none => simp only [OStream.all] at hb h; rw [h] at hb; cases hb
    | some k =>
      simp only [OStream.all, decide_eq_true_eq] at hb
      have h1 : k < s.length + p.length := by omega
      have h2 : k - s.length = 0 := by omega
      have h3 : k - (s.length + p.length) = 0 := by omega
      simp [OStream.all, List.take_append, hb, h1, h2, h3]
  | false =>
    rw [OStream.insert_eq hb]
    obtain ⟨text, width, fill, left, num, ptr, room, bad⟩ := o
    cases room with
    | none => simp [OStream.all, inField_zero]
    | some k =>
      simp only [OStream.all, decide_eq_false_iff_not, Nat.not_lt] at hb
      simp only [OStream.all, inField_zero, List.take_of_length_le hb, List.take_append, List.length_append, List.append_assoc,
        Nat.sub_sub]
      congr 1
      simp only [decide_eq_decide]
      omega

theorem OStream.all_inserts (o : OStream) (h : o.bad = false) (s : Str) (ps : List Str) :
    ps.foldl OStream.insert (o.all s) = o.all (s ++ ps.flatten) := by
  induction ps generalizing s with
  | nil => simp
  | cons p ps ih => rw [List.foldl_cons, o.all_insert h, ih]; simp

theorem OStream.bads (o : OStream) (h : o.bad = true) (ps : List Str) : ps.foldl OStream.insert o = o := by
  induction ps with
  | nil => rfl
  | cons p ps ih => rw [List.foldl_cons, OStream.insert_bad h, ih]

/-- Any pieces printed one after another. -/
theorem printedIn_foldl (o : OStream) (ps : List Str) : PrintedIn o ps (ps.foldl OStream.insert o) := by
  refine ⟨?_, ?_⟩
  · rintro (h | rfl)
    · exact o.bads h ps
    · rfl
  · rintro p rest rfl h
    rw [List.foldl_cons, OStream.insert_eq h, o.all_inserts h]
    generalize InField o.width o.fill o.left p ++ rest.flatten = s
    obtain ⟨text, width, fill, left, num, ptr, room, bad⟩ := o
    cases room with
    | none => simp only at h; simp [OStream.all, h]
    | some k => simp [OStream.all]

/-- The pieces of the edges from the second on. -/
def edgePieces (cs : List UInt8) : List Str := cs.flatMap fun c => [lit ", ", lit "'", [c], lit "':DawgNode{...}"]

theorem streamEdges_pos (i : Nat) (o : OStream) (es : List (UInt8 × Nat)) :
    streamEdges (i + 1) o es = (edgePieces (es.map (·.1))).foldl OStream.insert o := by
  induction es generalizing i o with
  | nil => rfl
  | cons e es ih => simp [streamEdges, ih, edgePieces]

theorem streamPrefix_eq (mem : PMem) (fuel : Nat) (o : OStream) (a : Nat) :
    streamPrefix mem fuel o a = (prefixStr mem fuel a).map fun s => (letters s).foldl OStream.insert o := by
  induction fuel generalizing a with
  | zero => rfl
  | succ fuel ih =>
    simp only [streamPrefix, prefixStr]
    cases mem a with
    | none => rfl
    | some p =>
      simp only
      split
      · rfl
      · rw [ih]
        cases prefixStr mem fuel p.parent with
        | error e => rfl
        | ok s => simp [Except.map, bind, Except.bind, letters]

theorem streamInter_eq {S : Type} (im : IMem S) (fuel : Nat) (o : OStream) (a : Nat) :
    streamInter im fuel o a = (interStr im fuel a).map fun s => (letters s).foldl OStream.insert o := by
  induction fuel generalizing a with
  | zero => rfl
  | succ fuel ih =>
    simp only [streamInter, interStr]
    cases getInter im a with
    | error e => rfl
    | ok c =>
      simp only [bind, Except.bind]
      split
      · rfl
      · rw [ih]
        cases interStr im fuel c.parent with
        | error e => rfl
        | ok s => simp [Except.map, letters]

end Lev

namespace Lev.Props

open Lev Spec

/-- C118, prefixes: only the first letter of the prefix is put into a field; printing the empty prefix prints nothing and keeps the
width for what is printed next.  Printing fails exactly when asking for the string does. -/
theorem c118_prefix (mem : PMem) (fuel : Nat) (o : OStream) (a : Nat) :
    (∀ s, prefixStr mem fuel a = .ok s → ∃ o', streamPrefix mem fuel o a = .ok o' ∧ PrintedIn o (letters s) o') ∧
    ∀ e, prefixStr mem fuel a = .error e → streamPrefix mem fuel o a = .error e := by
  rw [streamPrefix_eq]
  exact ⟨fun s h => ⟨_, by rw [h]; rfl, printedIn_foldl o _⟩, fun e h => by rw [h]; rfl⟩

/-- C118, intersections: the same. -/
theorem c118_intersection {S : Type} (im : IMem S) (fuel : Nat) (o : OStream) (a : Nat) :
    (∀ s, interStr im fuel a = .ok s → ∃ o', streamInter im fuel o a = .ok o' ∧ PrintedIn o (letters s) o') ∧
    ∀ e, interStr im fuel a = .error e → streamInter im fuel o a = .error e := by
  rw [streamInter_eq]
  exact ⟨fun s h => ⟨_, by rw [h]; rfl, printedIn_foldl o _⟩, fun e h => by rw [h]; rfl⟩

/-- C118, nodes: only the beginning of the text, up to the flag, is put into a field; with the text of C79 without a width. -/
theorem c118_node (o : OStream) (nd : DNode) :
    ∃ rest, PrintedIn o (lit "DawgNode{is_final=" :: rest) (streamNode o nd) ∧
      lit "DawgNode{is_final=" ++ rest.flatten = putNode nd := by
  have key : ∀ o : OStream, ∀ es : List (UInt8 × Nat), ∃ ps : List Str, streamEdges 0 o es = ps.foldl OStream.insert o ∧
      ∀ t, putEdges 0 t es = t ++ ps.flatten := by
    intro o es
    cases es with
    | nil => exact ⟨[], rfl, fun t => by simp [putEdges]⟩
    | cons e es =>
      refine ⟨[lit "'", [e.1], lit "':DawgNode{...}"] ++ edgePieces (es.map (·.1)), ?_, fun t => ?_⟩
      · simp [streamEdges, streamEdges_pos]
      · simp only [putEdges, putEdges_pos, Nat.lt_irrefl, gt_iff_lt, if_false, List.flatten_append, List.append_assoc]
        congr 1
        simp only [List.flatten_cons, List.flatten_nil, List.append_nil, List.append_assoc]
        congr 3
        induction es with
        | nil => rfl
        | cons f fs ih =>
          simp only [List.map_cons, moreEdges, ih, edgePieces, edgeText, List.flatMap_cons, List.flatten_cons, List.append_assoc,
            show lit "'" = [39] by decide, List.cons_append, List.nil_append]
  obtain ⟨ps, h1, h2⟩ := key (((o.insert (lit "DawgNode{is_final=")).insert (if nd.final then lit "true" else lit "false")).insert
    (lit ", edges={")) nd.edges
  refine ⟨(if nd.final then lit "true" else lit "false") :: lit ", edges={" :: (ps ++ [lit "}}"]), ?_, ?_⟩
  · have := printedIn_foldl o (lit "DawgNode{is_final=" :: (if nd.final then lit "true" else lit "false") :: lit ", edges={" ::
      (ps ++ [lit "}}"]))
    rw [streamNode, h1]
    simpa using this
  · rw [putNode, h2]
    simp

/-- C118, dictionaries: only "Dawg{size=" is put into a field; the size is printed as the stream prints numbers. -/
theorem c118_dictionary (o : OStream) (size root : Nat) :
    PrintedIn o [lit "Dawg{size=", o.num size, lit ", root=", o.ptr root, lit "}"] (streamDawg o size root) :=
  printedIn_foldl o _

/-- C118, pairs: only the beginning of the text, up to the first string, is put into a field. -/
theorem c118_pair (o : OStream) (p : SymPair) :
    PrintedIn o [lit "SymmetricPair{first=\"", p.first, lit "\", second=\"", p.second, lit "\"}"] (streamPair o p) :=
  printedIn_foldl o _

/-- C118: without a width and with room enough, the texts are those of a stream without settings (C79, `prefixStr`, `interStr`). -/
theorem c118_plain {o : OStream} {ps : List Str} {o' : OStream} (h : PrintedIn o ps o') (hb : o.bad = false) (hw : o.width = 0)
    (hr : ∀ k, o.room = some k → ps.flatten.length ≤ k) : o'.text = o.text ++ ps.flatten ∧ o'.bad = false := by
  cases ps with
  | nil => rw [h.1 (.inr rfl)]; simp [hb]
  | cons p rest =>
    obtain ⟨h1, h2, _⟩ := h.2 p rest rfl hb
    rw [hw, inField_zero] at h1 h2
    have hl : (p :: rest).flatten = p ++ rest.flatten := rfl
    rw [hl] at hr ⊢
    refine ⟨?_, ?_⟩
    · rw [h1]
      cases hr' : o.room with
      | none => rfl
      | some k => simp only; rw [List.take_of_length_le (hr k hr')]
    · cases hb' : o'.bad with
      | false => rfl
      | true =>
        obtain ⟨k, g1, g2⟩ := h2.1 hb'
        have := hr k g1
        omega

/-- C118: how long a text in a field is: as long as the field requires for the first piece, and the rest beside it. -/
theorem c118_length {o : OStream} {p : Str} {rest : List Str} {o' : OStream} (h : PrintedIn o (p :: rest) o') (hb : o.bad = false)
    (hr : o.room = none) : o'.text.length = o.text.length + max o.width p.length + rest.flatten.length := by
  obtain ⟨h1, _⟩ := h.2 p rest rfl hb
  rw [h1, hr]
  simp only [List.length_append, InField]
  split <;> simp only [List.length_append, List.length_replicate] <;> omega

/-- C118, the negation: a text of several pieces is in a field of the width that was set only if the width is no larger than the first
piece (so that there is no padding at all) or nothing follows the first piece. -/
theorem c118_not_in_field {o : OStream} {p : Str} {rest : List Str} {o' : OStream} (h : PrintedIn o (p :: rest) o') (hb : o.bad = false)
    (hr : o.room = none) :
    o'.text = o.text ++ InField o.width o.fill o.left (p ++ rest.flatten) ↔ o.width ≤ p.length ∨ rest.flatten = [] := by
  have hl := c118_length h hb hr
  constructor
  · intro he
    rw [he] at hl
    by_cases hw : o.width ≤ p.length
    · exact .inl hw
    · right
      simp only [List.length_append, InField] at hl
      have : rest.flatten.length = 0 := by
        split at hl <;> simp only [List.length_append, List.length_replicate] at hl <;> omega
      exact List.length_eq_zero_iff.1 this
  · intro hor
    obtain ⟨h1, _⟩ := h.2 p rest rfl hb
    rw [h1, hr]
    simp only
    rcases hor with hw | hz
    · have e1 : o.width - p.length = 0 := by omega
      have e2 : o.width - (p ++ rest.flatten).length = 0 := by simp only [List.length_append]; omega
      simp only [InField, e1, e2, List.replicate_zero, List.append_nil, List.nil_append, ite_self]
    · simp [hz]

/-- C118: what a failed stream took before is the beginning of the whole text, and nothing is added to it later. -/
theorem c118_failed {o : OStream} {ps : List Str} {o' : OStream} (h : PrintedIn o ps o') (hf : o'.bad = true) :
    (o.bad = true ∨ ∃ k, o.room = some k ∧ o'.text.length = o.text.length + k) ∧
    ∀ qs o'', PrintedIn o' qs o'' → o'' = o' := by
  refine ⟨?_, fun qs o'' h' => h'.1 (.inl hf)⟩
  cases hb : o.bad with
  | true => exact .inl rfl
  | false =>
    right
    cases ps with
    | nil => rw [h.1 (.inr rfl), hb] at hf; cases hf
    | cons p rest =>
      obtain ⟨h1, h2, _⟩ := h.2 p rest rfl hb
      obtain ⟨k, g1, g2⟩ := h2.1 hf
      refine ⟨k, g1, ?_⟩
      rw [h1, g1]
      simp only [List.length_append, List.length_take] at g2 ⊢
      omega

/-! ### Concrete cases -/

/-- A stream with the settings given that has taken nothing yet. -/
def exStream (width : Nat) (left : Bool) (room : Option Nat) : OStream :=
  { text := [], width := width, fill := 32, left := left, num := fun n => lit (toString n), ptr := fun _ => lit "0x1", room := room,
    bad := false }

/-- The prefix "ab" at 3, with the root at 1. -/
def exPrefixes : PMem := fun a =>
  if a = 1 then some ⟨5, 0, 0⟩ else if a = 2 then some ⟨6, 1, 97⟩ else if a = 3 then some ⟨7, 2, 98⟩ else none

/-- "ab" in a field of width 4 is printed with three spaces before it, one too many, or with spaces between the letters; the width that
was meant for the empty prefix applies to the letter printed after it. -/
example : (streamPrefix exPrefixes 5 (exStream 4 false none) 3).map (fun o => (o.text, o.width)) = .ok (lit "   ab", 0) ∧
    (streamPrefix exPrefixes 5 (exStream 4 true none) 3).map (fun o => (o.text, o.width)) = .ok (lit "a   b", 0) ∧
    (streamPrefix exPrefixes 5 (exStream 4 false none) 1).map (fun o => (o.text, o.width)) = .ok ([], 4) ∧
    (streamPrefix exPrefixes 5 (exStream 4 false none) 1).map (fun o => (o.insert (lit "x")).text) = .ok (lit "   x") := by
  decide +kernel

/-- A node and a pair in a wide field, a pair in a buffer that is too small. -/
example : (streamNode (exStream 20 true none) ⟨true, [(97, 2), (98, 3)]⟩).text =
      lit "DawgNode{is_final=  true, edges={'a':DawgNode{...}, 'b':DawgNode{...}}}" ∧
    (streamDawg (exStream 12 false none) 10 7).text = lit "  Dawg{size=10, root=0x1}" ∧
    (streamPair (exStream 0 false (some 26)) (SymPair.make (lit "ab") (lit "c"))).text = lit "SymmetricPair{first=\"ab\", " ∧
    (streamPair (exStream 0 false (some 26)) (SymPair.make (lit "ab") (lit "c"))).bad = true := by
  decide +kernel

end Lev.Props
