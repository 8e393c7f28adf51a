import Verif.Proofs.DemoText
import Verif.Props.Demo

/-!
# Property C70: what the demo program prints

`demoMainT` is the `main` of `/repo/example` with the texts it writes (`Verif/Model/DemoText.lean`).
-/

namespace Lev.Props

open Lev Spec

/-- C70: when the options are accepted, the program prints its configuration and then the conversation, with the answers
of `demoMain` (C63), and nothing on the error stream; it goes wrong exactly when `demoMain` does. -/
theorem c70_same_run {sgn : Bool} {addr : Nat → Nat} {argv : List Str} {fs : Files} {cli : Cli}
    (hopts : parseOpts (fun p => (fs.read p).isSome) argv = .ok (cli, true)) (fuel : Nat) (stdin : List UInt8) (h : Heap) :
    demoMainT sgn addr fuel argv stdin fs h = (demoMain sgn addr fuel argv stdin fs h).map fun r =>
      { code := r.code, out := configText cli.dict cli.ser cli.alg cli.maxD ++ conversation r.out, err := [],
        files := r.files, heap := r.heap } := by
  rw [← printConfig_configText]; exact demoMainT_eq hopts fuel stdin h

/-- C70, a first run: for each line of the input, the lines `d("query", "term") = distance` of exactly the terms of the
dictionary file within the distance. -/
theorem c70_first_run {sgn : Bool} {addr : Nat → Nat} {h : Heap} (ha : Allocator addr h) (h64 : ∀ k, k < h.count + 2 ^ 31 → addr k < 2 ^ 64)
    {fs : Files} {argv : List Str} {cli : Cli} (hopts : parseOpts (fun p => (fs.read p).isSome) argv = .ok (cli, true))
    (hser : ∀ bs, fs.read cli.ser = some bs → decodeMsg bs = none) {terms : List Str}
    (hdict : (fs.read cli.dict = none ∧ terms = []) ∨
      ∃ bs, fs.read cli.dict = some bs ∧ bs.length ≤ 39000000 ∧ Lines bs terms)
    {qs : List Str} (hqs : ∀ q ∈ qs, NoNewline q ∧ q ≠ []) {rest : List UInt8} (hrest : (∃ r, rest = 10 :: r) ∨ rest = [])
    (hlen : ∀ q ∈ qs, QueryFits cli.maxD q) :
    ∃ (run : DemoRunT) (answers : List (Str × List (Str × Nat))),
      Ends (fun fuel => demoMainT sgn addr fuel argv (textOf qs rest) fs h) run ∧ run.code = 0 ∧ run.err = [] ∧
      run.out = configText cli.dict cli.ser cli.alg cli.maxD ++ conversation answers ∧ OneLine answers ∧
      answers.map (·.1) = qs ∧
      ∀ x ∈ answers, (∀ t e, (t, e) ∈ x.2 ↔ t ∈ terms ∧ IsMinCost cli.alg x.1 t e ∧ e ≤ cli.maxD) ∧
        x.2.Pairwise fun a b => shortLex sgn a.1 b.1 := by
  obtain ⟨run, bs, ⟨N, hN⟩, h1, h2, h3, _⟩ := c63_first_run (sgn := sgn) ha h64 hopts hser hdict hqs hrest hlen
  refine ⟨{ code := run.code, out := configText cli.dict cli.ser cli.alg cli.maxD ++ conversation run.out, err := [],
            files := run.files, heap := run.heap }, run.out, ⟨N, fun fuel hf => ?_⟩, h1, rfl, rfl, ?_, h2, h3⟩
  · have := hN fuel hf
    dsimp only at this ⊢
    rw [c70_same_run hopts, this]; rfl
  · intro x hx
    have hq : x.1 ∈ qs := by rw [← h2]; exact List.mem_map_of_mem hx
    refine ⟨(hqs x.1 hq).1, fun c hc => ?_⟩
    have ht := (((h3 x hx).1 c.1 c.2).1 hc).1
    rcases hdict with ⟨_, rfl⟩ | ⟨_, _, _, ls, last, _, g1, g2, rfl⟩
    · simp at ht
    · rcases List.mem_append.1 ht with ht | ht
      · exact g1 _ ht
      · split at ht
        · simp at ht
        · rw [List.mem_singleton.1 ht]; exact g2

/-- C70: the answers can be read off the output: two conversations on the same query terms with different answers differ,
if no term contains a newline. -/
theorem c70_answers_readable {as bs : List (Str × List (Str × Nat))} (ha : OneLine as) (hb : OneLine bs)
    (hq : as.map (·.1) = bs.map (·.1)) (h : conversation as = conversation bs) : as = bs := conversation_inj ha hb hq h

/-- C70: the configuration can be read off the output, whatever characters the paths contain. -/
theorem c70_config_readable {c c' : Cli} (h : configText c.dict c.ser c.alg c.maxD = configText c'.dict c'.ser c'.alg c'.maxD) :
    c.dict = c'.dict ∧ c.ser = c'.ser ∧ c.alg = c'.alg ∧ c.maxD = c'.maxD :=
  printConfig_inj (by rw [printConfig_configText, printConfig_configText]; exact h)

/-- C70, options that are refused after any that are understood: the complaint goes to the error stream, nothing to the
output. -/
theorem c70_refused {sgn : Bool} {addr : Nat → Nat} {fs : Files} {items : List CliItem}
    (h : ∀ p, .dict p ∈ items → (fs.read p).isSome = true) {rest : List Str} {msg : Str}
    (hr : Complaint (fun p => (fs.read p).isSome) rest msg) (arg0 : Str) (fuel : Nat) (stdin : List UInt8) (hp : Heap) :
    ∃ code, demoMainT sgn addr fuel (arg0 :: (items.flatMap CliItem.render ++ rest)) stdin fs hp =
      .ok { code := code, out := [], err := msg, files := fs, heap := hp } := by
  obtain ⟨cli, e⟩ := parseOptsT_complaint h hr arg0
  exact ⟨cli.code, by simp only [demoMainT, e, bind, Except.bind]; rfl⟩

/-- C70: options that are understood, but neither file exists. -/
theorem c70_no_files {sgn : Bool} {addr : Nat → Nat} {fs : Files} {items : List CliItem}
    (h : ∀ p, .dict p ∈ items → (fs.read p).isSome = true) (arg0 : Str) {dict ser : Str}
    (hd : dict = (items.filterMap CliItem.dict?).getLast?.getD (lit "../resources/programming-languages.txt"))
    (hs : ser = (items.filterMap CliItem.ser?).getLast?.getD (lit "programming-languages.pb"))
    (h1 : fs.read dict = none) (h2 : fs.read ser = none) (fuel : Nat) (stdin : List UInt8) (hp : Heap) :
    ∃ code, demoMainT sgn addr fuel (arg0 :: items.flatMap CliItem.render) stdin fs hp =
      .ok { code := code, out := [], err := noFiles dict ser, files := fs, heap := hp } := by
  have e1 : (items.foldl CliItem.apply Cli.initial).dict = dict := by rw [foldl_apply, hd]; rfl
  have e2 : (items.foldl CliItem.apply Cli.initial).ser = ser := by rw [foldl_apply, hs]; rfl
  obtain ⟨cli, e⟩ := parseOptsT_noFiles (ex := fun p => (fs.read p).isSome) h arg0 (by rw [e1]; simp [h1])
    (by rw [e2]; simp [h2])
  rw [e1, e2] at e
  exact ⟨cli.code, by simp only [demoMainT, e, bind, Except.bind]; rfl⟩

/-- C70: every refused list of arguments has such a complaint, with the codes of C66. -/
theorem c70_complaint_exists {ex : Str → Bool} {rest : List Str} {code : Nat} (h : CliRefused ex rest code) :
    ∃ msg, Complaint ex rest msg := by
  cases h with
  | help h => exact ⟨_, .help h⟩
  | missing h => exact ⟨_, .missing h⟩
  | noFile h => exact ⟨_, .noFile h⟩
  | unknown h => exact ⟨_, .unknown h⟩

-- the query "a" on the dictionary "ab", "b", "ab"
set_option synthInstance.maxSize 1000 in
set_option maxRecDepth 100000 in
example : (demoMainT true (fun k => k + 1) 200 exArgv [97, 10] exFiles exHeap).map (fun r => (r.code, r.out, r.err)) =
    .ok (0, ln "Using configuration:" ++ ln "  dictionary-path: \"d\"" ++ ln "  serialization-path: \"s\"" ++
      ln "  algorithm: transposition" ++ ln "  max-distance: 1" ++ ln "" ++
      ln "Enter a query term (or nothing to exit)." ++ ln "query> d(\"a\", \"b\") = 1" ++ ln "d(\"a\", \"ab\") = 1" ++ ln "" ++
      ln "Enter a query term (or nothing to exit)." ++ ln "query> " ++ ln "Exiting ...", []) := by decide +kernel

-- an option without its value
example : Complaint (fun _ => true) [lit "--max-distance"] (lit "Not enough command-line args!\n") := .missing (by simp)

-- a path with a quote
example : quoted (lit "a\"b") = lit "\"a\\\"b\"" := by decide

-- two conversations
example : OneLine [([97], [([98], 1), ([97, 98], 1)])] := by
  intro x hx
  rw [List.mem_singleton.1 hx]
  simp [NoNewline]

/-- C70: with newlines in terms (which only a serialized dictionary can have) the output is ambiguous. -/
theorem c70_newline_ambiguous : ∃ as bs : List (Str × List (Str × Nat)), as.map (·.1) = bs.map (·.1) ∧ as ≠ bs ∧
    conversation as = conversation bs :=
  ⟨[([97], [(lit "b", 1), (lit "c", 1)])], [([97], [(lit "b\") = 1\nd(\"a\", \"c", 1)])], by decide, by decide, by decide +kernel⟩

end Lev.Props
