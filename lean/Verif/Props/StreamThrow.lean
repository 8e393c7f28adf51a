import Verif.Model.StreamThrow
import Verif.Props.Stream

/-!
# Property C120: printing to a stream that throws
-/

namespace Lev.Spec

open Lev

/-- What printing the pieces `ps` to the stream `o` comes to: without pieces nothing happens, not even an exception from a stream that has
failed.  Otherwise a stream that has failed throws and stays as it is; one that takes all the text holds it afterwards as if it did not
throw exceptions; one that does not throws, having taken as much as it can. -/
def PrintedOr (o : OStream) (ps : List Str) (r : Except OStream OStream) : Prop :=
  (ps = [] → r = .ok o) ∧
  ∀ p rest, ps = p :: rest →
    (o.bad = true → r = .error o) ∧
    (o.bad = false → (∀ k, o.room = some k → (InField o.width o.fill o.left p ++ rest.flatten).length ≤ k) →
      ∃ o', r = .ok o' ∧ PrintedIn o ps o') ∧
    ∀ k, o.bad = false → o.room = some k → k < (InField o.width o.fill o.left p ++ rest.flatten).length →
      ∃ o', r = .error o' ∧ o'.bad = true ∧ o'.text = o.text ++ (InField o.width o.fill o.left p ++ rest.flatten).take k

end Lev.Spec

namespace Lev

open Spec

/-- Any pieces, one after another, until an exception. -/
def insertsT (ps : List Str) (o : OStream) : Except OStream OStream :=
  match ps with
  | [] => .ok o
  | p :: ps => (o.insertT p).bind (insertsT ps)

theorem insertsT_append (ps qs : List Str) (o : OStream) : insertsT (ps ++ qs) o = (insertsT ps o).bind (insertsT qs) := by
  induction ps generalizing o with
  | nil => rfl
  | cons p ps ih =>
    simp only [List.cons_append, insertsT]
    cases o.insertT p with
    | error e => rfl
    | ok o' => exact ih o'

theorem insertsT_eq (ps : List Str) (o : OStream) :
    (ps = [] ∧ insertsT ps o = .ok o) ∨
    ((ps.foldl OStream.insert o).bad = false ∧ insertsT ps o = .ok (ps.foldl OStream.insert o)) ∨
    (ps ≠ [] ∧ (ps.foldl OStream.insert o).bad = true ∧ (o.bad = true → insertsT ps o = .error o) ∧
      ∃ w, insertsT ps o = .error { ps.foldl OStream.insert o with width := w }) := by
  induction ps generalizing o with
  | nil => exact .inl ⟨rfl, rfl⟩
  | cons p ps ih =>
    right
    cases hb : o.bad with
    | true =>
      right
      have hi : insertsT (p :: ps) o = .error o := by simp [insertsT, OStream.insertT, hb, Except.bind]
      rw [o.bads hb, hi]
      exact ⟨by simp, hb, fun _ => rfl, o.width, rfl⟩
    | false =>
      cases hb1 : (o.insert p).bad with
      | true =>
        right
        have hi : insertsT (p :: ps) o = .error { o.insert p with width := o.width } := by
          simp [insertsT, OStream.insertT, hb, hb1, Except.bind]
        rw [List.foldl_cons, OStream.bads _ hb1, hi]
        exact ⟨by simp, hb1, (by simp), o.width, rfl⟩
      | false =>
        have hi : insertsT (p :: ps) o = insertsT ps (o.insert p) := by
          simp [insertsT, OStream.insertT, hb, hb1, Except.bind]
        rw [List.foldl_cons, hi]
        rcases ih (o.insert p) with ⟨rfl, h2⟩ | h | ⟨h1, h2, _, h4⟩
        · exact .inl ⟨hb1, h2⟩
        · exact .inl h
        · exact .inr ⟨by simp, h2, by simp, h4⟩

theorem printedOr_insertsT (o : OStream) (ps : List Str) : PrintedOr o ps (insertsT ps o) := by
  have hp := printedIn_foldl o ps
  refine ⟨fun h => by rw [h]; rfl, ?_⟩
  rintro p rest rfl
  rcases insertsT_eq (p :: rest) o with ⟨h, _⟩ | ⟨h1, h2⟩ | ⟨_, h1, h2, w, h3⟩
  · cases h
  · refine ⟨fun hb => ?_, fun hb _ => ⟨_, h2, hp⟩, fun k hb hk hl => ?_⟩
    · rw [o.bads hb] at h1; rw [hb] at h1; cases h1
    · have := (hp.2 p rest rfl hb).2.1.2 ⟨k, hk, hl⟩
      rw [h1] at this; cases this
  · refine ⟨h2, fun hb hroom => ?_, fun k hb hk hl => ⟨_, h3, h1, ?_⟩⟩
    · obtain ⟨k, hk, hl⟩ := (hp.2 p rest rfl hb).2.1.1 h1
      have := hroom k hk
      omega
    · have := (hp.2 p rest rfl hb).1
      rw [hk] at this
      exact this

theorem streamPrefixT_eq (mem : PMem) (fuel : Nat) (o : OStream) (a : Nat) :
    streamPrefixT mem fuel o a = (prefixStr mem fuel a).map fun s => insertsT (letters s) o := by
  induction fuel generalizing a with
  | zero => rfl
  | succ fuel ih =>
    simp only [streamPrefixT, prefixStr]
    cases mem a with
    | none => rfl
    | some p =>
      simp only
      split
      · rfl
      · rw [ih]
        cases prefixStr mem fuel p.parent with
        | error e => rfl
        | ok s =>
          simp only [Except.map, bind, Except.bind, letters, List.map_append, insertsT_append, List.map_cons, List.map_nil]
          cases insertsT (s.map fun c => [c]) o with
          | error e => rfl
          | ok o' =>
            simp only [insertsT, Except.bind]
            cases o'.insertT [p.label] <;> rfl

theorem streamInterT_eq {S : Type} (im : IMem S) (fuel : Nat) (o : OStream) (a : Nat) :
    streamInterT im fuel o a = (interStr im fuel a).map fun s => insertsT (letters s) o := by
  induction fuel generalizing a with
  | zero => rfl
  | succ fuel ih =>
    simp only [streamInterT, interStr]
    cases getInter im a with
    | error e => rfl
    | ok c =>
      simp only [bind, Except.bind]
      split
      · rfl
      · rw [ih]
        cases interStr im fuel c.parent with
        | error e => rfl
        | ok s =>
          simp only [Except.map, letters, List.map_append, insertsT_append, List.map_cons, List.map_nil]
          cases insertsT (s.map fun c => [c]) o with
          | error e => rfl
          | ok o' =>
            simp only [insertsT, Except.bind]
            cases o'.insertT [c.label] <;> rfl

theorem bind_ok_id {ε α : Type} (r : Except ε α) : (r.bind fun x => .ok x) = r := by cases r <;> rfl

theorem streamEdgesT_pos (i : Nat) (o : OStream) (es : List (UInt8 × Nat)) :
    streamEdgesT (i + 1) o es = insertsT (edgePieces (es.map (·.1))) o := by
  induction es generalizing i o with
  | nil => rfl
  | cons e es ih =>
    simp only [streamEdgesT, ih, edgePieces, List.map_cons, List.flatMap_cons, List.cons_append, List.nil_append, insertsT,
      gt_iff_lt, if_true, bind, Nat.zero_lt_succ]

end Lev

namespace Lev.Props

open Lev Spec

/-- C120, prefixes: letter by letter; an empty prefix never throws. -/
theorem c120_prefix (mem : PMem) (fuel : Nat) (o : OStream) (a : Nat) :
    (∀ s, prefixStr mem fuel a = .ok s → ∃ r, streamPrefixT mem fuel o a = .ok r ∧ PrintedOr o (letters s) r) ∧
    ∀ e, prefixStr mem fuel a = .error e → streamPrefixT mem fuel o a = .error e := by
  rw [streamPrefixT_eq]
  exact ⟨fun s h => ⟨_, by rw [h]; rfl, printedOr_insertsT o _⟩, fun e h => by rw [h]; rfl⟩

/-- C120, intersections: the same. -/
theorem c120_intersection {S : Type} (im : IMem S) (fuel : Nat) (o : OStream) (a : Nat) :
    (∀ s, interStr im fuel a = .ok s → ∃ r, streamInterT im fuel o a = .ok r ∧ PrintedOr o (letters s) r) ∧
    ∀ e, interStr im fuel a = .error e → streamInterT im fuel o a = .error e := by
  rw [streamInterT_eq]
  exact ⟨fun s h => ⟨_, by rw [h]; rfl, printedOr_insertsT o _⟩, fun e h => by rw [h]; rfl⟩

/-- C120, nodes. -/
theorem c120_node (o : OStream) (nd : DNode) :
    ∃ rest, PrintedOr o (lit "DawgNode{is_final=" :: rest) (streamNodeT o nd) ∧
      lit "DawgNode{is_final=" ++ rest.flatten = putNode nd := by
  have key : ∀ es : List (UInt8 × Nat), ∃ ps : List Str, (∀ o : OStream, streamEdgesT 0 o es = insertsT ps o) ∧
      ∀ t, putEdges 0 t es = t ++ ps.flatten := by
    intro es
    cases es with
    | nil => exact ⟨[], fun _ => rfl, fun t => by simp [putEdges]⟩
    | cons e es =>
      refine ⟨[lit "'", [e.1], lit "':DawgNode{...}"] ++ edgePieces (es.map (·.1)), fun o => ?_, fun t => ?_⟩
      · simp only [streamEdgesT, streamEdgesT_pos, List.cons_append, List.nil_append, insertsT, bind, Nat.lt_irrefl, gt_iff_lt,
          if_false]
        rfl
      · simp only [putEdges, putEdges_pos, Nat.lt_irrefl, gt_iff_lt, if_false, List.flatten_append, List.append_assoc]
        congr 1
        simp only [List.flatten_cons, List.flatten_nil, List.append_nil, List.append_assoc]
        congr 3
        induction es with
        | nil => rfl
        | cons f fs ih =>
          simp only [List.map_cons, moreEdges, ih, edgePieces, edgeText, List.flatMap_cons, List.flatten_cons, List.append_assoc,
            show lit "'" = [39] by decide, List.cons_append, List.nil_append]
  obtain ⟨ps, h1, h2⟩ := key nd.edges
  refine ⟨(if nd.final then lit "true" else lit "false") :: lit ", edges={" :: (ps ++ [lit "}}"]), ?_, ?_⟩
  · have := printedOr_insertsT o (lit "DawgNode{is_final=" :: (if nd.final then lit "true" else lit "false") :: lit ", edges={" ::
      (ps ++ [lit "}}"]))
    have he : streamNodeT o nd = insertsT (lit "DawgNode{is_final=" :: (if nd.final then lit "true" else lit "false") ::
        lit ", edges={" :: (ps ++ [lit "}}"])) o := by
      have hl : ∀ o : OStream, insertsT [lit "}}"] o = o.insertT (lit "}}") := fun o => bind_ok_id _
      have hf : insertsT [lit "}}"] = fun o => o.insertT (lit "}}") := funext hl
      have ha : insertsT (ps ++ [lit "}}"]) = fun o => (insertsT ps o).bind fun o => o.insertT (lit "}}") :=
        funext fun o => by rw [insertsT_append, hf]
      simp only [streamNodeT, h1, insertsT, ha, bind]
    rw [he]
    exact this
  · rw [putNode, h2]
    simp

theorem insertsT_five (a b c d e : Str) (o : OStream) : insertsT [a, b, c, d, e] o = (do
    let o ← o.insertT a
    let o ← o.insertT b
    let o ← o.insertT c
    let o ← o.insertT d
    o.insertT e) := by
  have hl : insertsT [e] = fun o => o.insertT e := funext fun o => bind_ok_id _
  simp only [insertsT, bind] at hl ⊢
  rw [hl]

/-- C120, dictionaries. -/
theorem c120_dictionary (o : OStream) (size root : Nat) :
    PrintedOr o [lit "Dawg{size=", o.num size, lit ", root=", o.ptr root, lit "}"] (streamDawgT o size root) := by
  have := printedOr_insertsT o [lit "Dawg{size=", o.num size, lit ", root=", o.ptr root, lit "}"]
  rwa [insertsT_five] at this

/-- C120, pairs. -/
theorem c120_pair (o : OStream) (p : SymPair) :
    PrintedOr o [lit "SymmetricPair{first=\"", p.first, lit "\", second=\"", p.second, lit "\"}"] (streamPairT o p) := by
  have := printedOr_insertsT o [lit "SymmetricPair{first=\"", p.first, lit "\", second=\"", p.second, lit "\"}"]
  rwa [insertsT_five] at this

/-- C120: the exception is thrown exactly if something is to be printed and the stream fails on it without exceptions, or had failed; and
the stream has taken the same text with and without exceptions. -/
theorem c120_same_text {o : OStream} {ps : List Str} {r : Except OStream OStream} {o' : OStream} (h : PrintedOr o ps r)
    (h' : PrintedIn o ps o') :
    (match (generalizing := false) r with | .ok x => x.text | .error x => x.text) = o'.text ∧
    ((∃ x, r = .error x) ↔ ps ≠ [] ∧ o'.bad = true) := by
  cases ps with
  | nil => rw [h.1 rfl, h'.1 (.inr rfl)]; simp
  | cons p rest =>
    obtain ⟨h1, h2, h3⟩ := h.2 p rest rfl
    cases hb : o.bad with
    | true => rw [h1 hb, h'.1 (.inl hb)]; simp [hb]
    | false =>
      obtain ⟨g1, g2, _⟩ := h'.2 p rest rfl hb
      by_cases hk : ∀ k, o.room = some k → (InField o.width o.fill o.left p ++ rest.flatten).length ≤ k
      · obtain ⟨x, rfl, hx⟩ := h2 hb hk
        obtain ⟨x1, x2, _⟩ := hx.2 p rest rfl hb
        refine ⟨by rw [g1]; exact x1, ?_⟩
        rw [g2]
        constructor
        · rintro ⟨_, hx⟩; cases hx
        · rintro ⟨_, k, hk1, hk2⟩
          have := hk k hk1
          omega
      · obtain ⟨k, hk1, hk2⟩ : ∃ k, o.room = some k ∧ k < (InField o.width o.fill o.left p ++ rest.flatten).length :=
          Classical.byContradiction fun hn => hk fun k hk1 => Nat.le_of_not_lt fun hk2 => hn ⟨k, hk1, hk2⟩
        obtain ⟨x, rfl, hx1, hx2⟩ := h3 k hb hk1 hk2
        refine ⟨by rw [g1, hk1]; exact hx2, ?_⟩
        rw [g2]
        exact ⟨fun _ => ⟨by simp, k, hk1, hk2⟩, fun _ => ⟨x, rfl⟩⟩

/-! ### Concrete cases -/

-- a node on a stream that takes 20 bytes, and on one that takes all
example : (match streamNodeT (exStream 0 false (some 20)) ⟨true, [(97, 1)]⟩ with
    | .ok o => (false, o.text, o.bad) | .error o => (true, o.text, o.bad)) = (true, lit "DawgNode{is_final=tr", true) := by decide

example : (match streamNodeT (exStream 0 false none) ⟨true, [(97, 1)]⟩ with
    | .ok o => (false, o.text, o.bad) | .error o => (true, o.text, o.bad)) =
      (false, lit "DawgNode{is_final=true, edges={'a':DawgNode{...}}}", false) := by decide

-- a pair on a stream that takes nothing
example : (match streamPairT (exStream 0 false (some 0)) ⟨[97], [98]⟩ with
    | .ok o => (false, o.text, o.bad) | .error o => (true, o.text, o.bad)) = (true, [], true) := by decide

end Lev.Props
