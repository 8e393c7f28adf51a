import Verif.Model.DemoStream
import Verif.Props.Stream
import Verif.Props.DemoText

/-!
# Property C119: the demo program whose output is cut off
-/

namespace Lev

open Spec

/-- Printing `t` turns the stream as it was after printing anything into the stream as it is after printing that and `t`. -/
def Prints (f : OStream → OStream) (t : Str) : Prop :=
  ∀ o : OStream, (∀ s, o.bad = false → f (o.all s) = o.all (s ++ t)) ∧ (o.bad = true → f o = o)

theorem Prints.insert (p : Str) : Prints (fun o => o.insert p) p :=
  fun o => ⟨fun s h => o.all_insert h s p, fun h => OStream.insert_bad h p⟩

theorem Prints.comp {f g : OStream → OStream} {s t : Str} (hf : Prints f s) (hg : Prints g t) : Prints (fun o => g (f o)) (s ++ t) :=
  fun o => ⟨fun x h => by
    show g (f (o.all x)) = _
    rw [(hf o).1 x h, (hg o).1 _ h, List.append_assoc], fun h => by
    show g (f o) = o
    rw [(hf o).2 h, (hg o).2 h]⟩

theorem Prints.id : Prints (fun o => o) [] := fun o => ⟨fun s _ => by rw [List.append_nil], fun _ => rfl⟩

theorem Prints.line (ps : List Str) : Prints (fun o => o.line ps) (ps.flatten ++ [10]) := by
  have h : Prints (fun o => ps.foldl OStream.insert o) ps.flatten := by
    induction ps with
    | nil => exact Prints.id
    | cons p ps ih => exact (Prints.insert p).comp ih
  exact h.comp (Prints.insert [10])

theorem Prints.cast {f : OStream → OStream} {s t : Str} (h : Prints f s) (e : s = t) : Prints f t := e ▸ h

theorem prints_config (cli : Cli) : Prints (fun o => streamConfig o cli) (printConfig cli) := by
  have halg : Prints (fun out => match cli.alg with
      | .standard => out.insert (lit "standard")
      | .transposition => out.insert (lit "transposition")
      | .mergeAndSplit => out.insert (lit "merge-and-split")) (match cli.alg with
      | .standard => lit "standard"
      | .transposition => lit "transposition"
      | .mergeAndSplit => lit "merge-and-split") := by
    cases cli.alg <;> exact Prints.insert _
  refine (((((((Prints.line [lit "Using configuration:"]).comp (Prints.line [lit "  dictionary-path: ", putPath cli.dict])).comp
    (Prints.line [lit "  serialization-path: ", putPath cli.ser])).comp (Prints.insert (lit "  algorithm: "))).comp halg).comp
    (Prints.line [])).comp (Prints.line [lit "  max-distance: ", putSize cli.maxD])).cast ?_
  simp only [printConfig, ln, List.flatten_cons, List.flatten_nil, List.append_nil, List.append_assoc, List.nil_append]
  clear halg
  cases cli.alg <;> rfl

theorem prints_prompt : Prints streamPrompt printPrompt := by
  refine (((Prints.line []).comp (Prints.line [lit "Enter a query term (or nothing to exit)."])).comp
    (Prints.insert (lit "query> "))).cast ?_
  decide

theorem prints_candidates (q : Str) (rs : List (Str × Nat)) :
    Prints (fun o => rs.foldl (streamCandidate q) o) (rs.flatMap (printCandidate q)) := by
  induction rs with
  | nil => exact Prints.id
  | cons c rs ih =>
    refine ((Prints.line [lit "d(\"", q, lit "\", \"", c.1, lit "\") = ", putSize c.2]).comp ih).cast ?_
    simp only [List.flatMap_cons, printCandidate, List.flatten_cons, List.flatten_nil, List.append_nil, List.append_assoc]

theorem demoLoopS_eq (A : Algorithm) (n : Nat) (mem : Mem) (root bound fuel : Nat) (s : IStream) (term : Str) (o : OStream) :
    (∀ x, o.bad = false → demoLoopS A n mem root bound fuel s term (o.all x) =
      (demoLoopT A n mem root bound fuel s term).map fun t => o.all (x ++ t)) ∧
    (o.bad = true → demoLoopS A n mem root bound fuel s term o = (demoLoopT A n mem root bound fuel s term).map fun _ => o) := by
  induction fuel generalizing s term with
  | zero => exact ⟨fun _ _ => rfl, fun _ => rfl⟩
  | succ fuel ih =>
    simp only [demoLoopS, demoLoopT]
    cases hg : getline s term with
    | mk s' term' =>
      simp only
      refine ⟨fun x h => ?_, fun h => ?_⟩
      · rw [(prints_prompt o).1 x h]
        split
        · rfl
        · cases transduce A updCandidate ([], 0) mem root term' n bound with
          | error e => rfl
          | ok rs =>
            simp only [bind, Except.bind]
            have hc := (prints_candidates term' rs o).1 (x ++ printPrompt) h
            simp only at hc
            rw [hc, (ih s' term').1 _ h]
            cases demoLoopT A n mem root bound fuel s' term' with
            | error e => rfl
            | ok t => simp only [Except.map, List.append_assoc]
      · rw [(prints_prompt o).2 h]
        split
        · rfl
        · cases transduce A updCandidate ([], 0) mem root term' n bound with
          | error e => rfl
          | ok rs =>
            simp only [bind, Except.bind]
            have hc := (prints_candidates term' rs o).2 h
            simp only at hc
            rw [hc, (ih s' term').2 h]
            cases demoLoopT A n mem root bound fuel s' term' with
            | error e => rfl
            | ok t => rfl

/-- The stream after printing `t`, whatever its state was. -/
def OStream.after (o : OStream) (t : Str) : OStream := if o.bad then o else o.all t

theorem OStream.all_nil {o : OStream} (hw : o.width = 0) (hb : o.bad = false) : o.all [] = o := by
  obtain ⟨text, width, fill, left, num, ptr, room, bad⟩ := o
  simp only at hw hb
  subst hw hb
  cases room <;> simp [OStream.all]

theorem demoMainS_eq (sgn : Bool) (addr : Nat → Nat) (fuel : Nat) (argv : List Str) (stdin : List UInt8) {o : OStream}
    (hw : o.width = 0) (fs : Files) (h : Heap) :
    demoMainS sgn addr fuel argv stdin o fs h = (demoMainT sgn addr fuel argv stdin fs h).map fun r =>
      { code := r.code, out := o.after r.out, err := r.err, files := r.files, heap := r.heap } := by
  have hnil : o.after [] = o := by
    unfold OStream.after
    split
    · rfl
    · rename_i hb; exact OStream.all_nil hw (by simpa using hb)
  have hexit : Prints (fun o => (o.line []).line [lit "Exiting ..."]) (ln "" ++ ln "Exiting ...") :=
    ((Prints.line []).comp (Prints.line [lit "Exiting ..."])).cast (by decide)
  have hstart : ∀ cli, streamConfig o cli = o.after (printConfig cli) := by
    intro cli
    unfold OStream.after
    split
    · rename_i hb; exact (prints_config cli o).2 hb
    · rename_i hb
      have := (prints_config cli o).1 [] (by simpa using hb)
      rwa [OStream.all_nil hw (by simpa using hb)] at this
  simp only [demoMainS, demoMainT, parseOptsS, parseOptsT]
  cases parseLoopT (fun p => (fs.read p).isSome) argv (argv.length + 1) 1 Cli.initial with
  | error e => rfl
  | ok r =>
    obtain ⟨cli, go, err⟩ := r
    simp only [bind, Except.bind]
    cases go with
    | false => simp [Except.map, hnil]
    | true =>
      simp only [Bool.not_true, Bool.false_eq_true, if_false]
      by_cases hc : (!(fs.read cli.dict).isSome && !(fs.read cli.ser).isSome) = true
      · simp only [if_pos hc, Bool.not_false, if_true, Except.map, hnil]
      · simp only [if_neg hc, Bool.not_true, Bool.false_eq_true, if_false]
        cases demoDawg sgn addr fuel fs cli h with
        | error e => rfl
        | ok r =>
          obtain ⟨h', d⟩ := r
          cases d with
          | none => rfl
          | some d =>
            simp only [hstart]
            have hloop : demoLoopS cli.alg cli.maxD h'.mem d.root fuel fuel (.open stdin) [] (o.after (printConfig cli)) =
                (demoLoopT cli.alg cli.maxD h'.mem d.root fuel fuel (.open stdin) []).map fun t =>
                  o.after (printConfig cli ++ t) := by
              have := demoLoopS_eq cli.alg cli.maxD h'.mem d.root fuel fuel (.open stdin) [] o
              unfold OStream.after
              cases hb : o.bad with
              | true => simpa using this.2 hb
              | false => simpa using this.1 (printConfig cli) hb
            rw [hloop]
            cases demoLoopT cli.alg cli.maxD h'.mem d.root fuel fuel (.open stdin) [] with
            | error e => rfl
            | ok t =>
              have hex : ((o.after (printConfig cli ++ t)).line []).line [lit "Exiting ..."] =
                  o.after (printConfig cli ++ t ++ (ln "" ++ ln "Exiting ...")) := by
                unfold OStream.after
                cases hb : o.bad with
                | true => simpa using (hexit o).2 hb
                | false => simpa using (hexit o).1 (printConfig cli ++ t) hb
              simp only [Except.map, hex]
              cases serializeFile sgn h'.mem fuel d.root d.size fs cli.ser with
              | error e => rfl
              | ok r =>
                simp only
                cases destroyDawg fuel h' d with
                | error e => rfl
                | ok h2 => rfl

end Lev

namespace Lev.Props

open Lev Spec

variable {sgn : Bool} {addr : Nat → Nat} {argv : List Str} {stdin : List UInt8} {fs : Files} {h : Heap}

/-- C119: a program that ends when all its output is taken ends also when only `k` more bytes are, with the same exit code, the same
files, the same memory and the same text on `std::cerr`; what is printed is the first `k` bytes of the whole. -/
theorem c119_cut_off {run : DemoRunT} (hr : Ends (fun fuel => demoMainT sgn addr fuel argv stdin fs h) run) {o : OStream}
    (hw : o.width = 0) :
    ∃ run', Ends (fun fuel => demoMainS sgn addr fuel argv stdin o fs h) run' ∧ run'.code = run.code ∧ run'.err = run.err ∧
      run'.files = run.files ∧ run'.heap = run.heap ∧
      (o.bad = true → run'.out = o) ∧
      (o.bad = false → o.room = none → run'.out.text = o.text ++ run.out ∧ run'.out.bad = false) ∧
      ∀ k, o.bad = false → o.room = some k → run'.out.text = o.text ++ run.out.take k ∧
        (run'.out.bad = true ↔ k < run.out.length) := by
  obtain ⟨N, hN⟩ := hr
  refine ⟨_, ⟨N, fun fuel hf => by simp only [demoMainS_eq sgn addr fuel argv stdin hw fs h, hN fuel hf]; rfl⟩, rfl, rfl, rfl, rfl, ?_, ?_, ?_⟩
  · intro hb; simp [OStream.after, hb]
  · intro hb hroom; simp [OStream.after, hb, OStream.all, hroom]
  · intro k hb hroom; simp [OStream.after, hb, OStream.all, hroom]

/-- C119: the other way round, a program that ends when its output is cut off ends when it is not. -/
theorem c119_not_cut_off {o : OStream} (hw : o.width = 0) {fuel : Nat} {run' : DemoRunS}
    (hr : demoMainS sgn addr fuel argv stdin o fs h = .ok run') :
    ∃ run, demoMainT sgn addr fuel argv stdin fs h = .ok run ∧ run.code = run'.code ∧ run.err = run'.err ∧
      run.files = run'.files ∧ run.heap = run'.heap := by
  rw [demoMainS_eq sgn addr fuel argv stdin hw fs h] at hr
  cases hT : demoMainT sgn addr fuel argv stdin fs h with
  | error e => rw [hT] at hr; cases hr
  | ok run =>
    rw [hT] at hr
    simp only [Except.map, Except.ok.injEq] at hr
    exact ⟨run, rfl, by rw [← hr], by rw [← hr], by rw [← hr], by rw [← hr]⟩

/-- C119: undefined behaviour and a program that never ends do not depend on the output either. -/
theorem c119_errors {o : OStream} (hw : o.width = 0) (fuel : Nat) (e : Err) :
    demoMainS sgn addr fuel argv stdin o fs h = .error e ↔ demoMainT sgn addr fuel argv stdin fs h = .error e := by
  rw [demoMainS_eq sgn addr fuel argv stdin hw fs h]
  cases demoMainT sgn addr fuel argv stdin fs h <;> simp [Except.map]

/-- C119, a first run: the exit code is 0 and what is printed is the first `k` bytes of the configuration and the conversation with the
right answers, however small `k` is. -/
theorem c119_first_run (ha : Allocator addr h) (h64 : ∀ k, k < h.count + 2 ^ 31 → addr k < 2 ^ 64)
    {cli : Cli} (hopts : parseOpts (fun p => (fs.read p).isSome) argv = .ok (cli, true))
    (hser : ∀ bs, fs.read cli.ser = some bs → decodeMsg bs = none) {terms : List Str}
    (hdict : (fs.read cli.dict = none ∧ terms = []) ∨
      ∃ bs, fs.read cli.dict = some bs ∧ bs.length ≤ 39000000 ∧ Lines bs terms)
    {qs : List Str} (hqs : ∀ q ∈ qs, NoNewline q ∧ q ≠ []) {rest : List UInt8} (hrest : (∃ r, rest = 10 :: r) ∨ rest = [])
    (hlen : ∀ q ∈ qs, QueryFits cli.maxD q) {o : OStream} (hw : o.width = 0) (hb : o.bad = false) {k : Nat} (hk : o.room = some k) :
    ∃ (run : DemoRunS) (answers : List (Str × List (Str × Nat))),
      Ends (fun fuel => demoMainS sgn addr fuel argv (textOf qs rest) o fs h) run ∧ run.code = 0 ∧ run.err = [] ∧
      run.out.text = o.text ++ (configText cli.dict cli.ser cli.alg cli.maxD ++ conversation answers).take k ∧
      answers.map (·.1) = qs ∧
      ∀ x ∈ answers, (∀ t e, (t, e) ∈ x.2 ↔ t ∈ terms ∧ IsMinCost cli.alg x.1 t e ∧ e ≤ cli.maxD) ∧
        x.2.Pairwise fun a b => shortLex sgn a.1 b.1 := by
  obtain ⟨run, answers, h1, h2, h3, h4, _, h5, h6⟩ := c70_first_run (sgn := sgn) ha h64 hopts hser hdict hqs hrest hlen
  obtain ⟨run', g1, g2, g3, _, _, _, _, g4⟩ := c119_cut_off h1 hw
  exact ⟨run', answers, g1, by rw [g2, h2], by rw [g3, h3], by rw [(g4 k hb hk).1, h4], h5, h6⟩

-- the query "a" on the dictionary "ab", "b", "ab": a stream that takes 30 bytes, and one that takes all
example : (demoMainS true (fun k => k + 1) 200 exArgv [97, 10]
      ⟨[], 0, 32, false, putSize, putSize, some 30, false⟩ exFiles exHeap).map
      (fun r => (r.code, r.out.text, r.out.bad, (r.files.read (lit "s")).isSome)) =
    .ok (0, ln "Using configuration:" ++ lit "  diction", true, true) := by decide +kernel

example : (demoMainS true (fun k => k + 1) 200 exArgv [97, 10]
      ⟨[], 0, 32, false, putSize, putSize, none, false⟩ exFiles exHeap).map (fun r => (r.code, r.out.text, r.out.bad)) =
    .ok (0, ln "Using configuration:" ++ ln "  dictionary-path: \"d\"" ++ ln "  serialization-path: \"s\"" ++
      ln "  algorithm: transposition" ++ ln "  max-distance: 1" ++ ln "" ++
      ln "Enter a query term (or nothing to exit)." ++ ln "query> d(\"a\", \"b\") = 1" ++ ln "d(\"a\", \"ab\") = 1" ++ ln "" ++
      ln "Enter a query term (or nothing to exit)." ++ ln "query> " ++ ln "Exiting ...", false) := by decide +kernel

end Lev.Props
