import Verif.Proofs.Demo
import Verif.Props.Wire

/-!
# Properties C63, C66, C67: the demo program

`demoMain` is the `main` of `/repo/example` (`Verif/Model/Demo.lean`).  The program starts in any memory in which
`addr` is an allocator; the next 2^31 nodes allocated have 64-bit addresses.
-/

namespace Lev.Props

open Lev Spec

/-! ### C63: what the program answers and what it saves -/

/-- C63, a run without a serialized dictionary (there is no such file, or it is not a message): the terms are the lines
of the dictionary file (if it is not too large: 39 million bytes), each query gets exactly the terms within the distance,
with their distances, in order; the program exits with 0, frees what it allocated, and leaves the dictionary in the
serialization file if that can be written and every other file as it was. -/
theorem c63_first_run {sgn : Bool} {addr : Nat → Nat} {h : Heap} (ha : Allocator addr h) (h64 : ∀ k, k < h.count + 2 ^ 31 → addr k < 2 ^ 64)
    {fs : Files} {argv : List Str} {cli : Cli} (hopts : parseOpts (fun p => (fs.read p).isSome) argv = .ok (cli, true))
    (hser : ∀ bs, fs.read cli.ser = some bs → decodeMsg bs = none) {terms : List Str}
    (hdict : (fs.read cli.dict = none ∧ terms = []) ∨
      ∃ bs, fs.read cli.dict = some bs ∧ bs.length ≤ 39000000 ∧ Lines bs terms)
    {qs : List Str} (hqs : ∀ q ∈ qs, NoNewline q ∧ q ≠ []) {rest : List UInt8} (hrest : (∃ r, rest = 10 :: r) ∨ rest = [])
    (hlen : ∀ q ∈ qs, QueryFits cli.maxD q) :
    ∃ run bs, Ends (fun fuel => demoMain sgn addr fuel argv (textOf qs rest) fs h) run ∧ run.code = 0 ∧
      run.out.map (·.1) = qs ∧
      (∀ x ∈ run.out, (∀ t e, (t, e) ∈ x.2 ↔ t ∈ terms ∧ IsMinCost cli.alg x.1 t e ∧ e ≤ cli.maxD) ∧
        x.2.Pairwise fun a b => shortLex sgn a.1 b.1) ∧
      Stored bs terms.length (· ∈ terms) ∧
      run.files.read = (if fs.writable cli.ser then fun p => if p = cli.ser then some bs else fs.read p else fs.read) ∧
      run.files.writable = fs.writable ∧
      ∀ a, run.heap.mem a = h.mem a := by
  obtain ⟨h1, d, hdawg, hfin, hcount⟩ := demoDawg_build (sgn := sgn) ha hser
    (hdict.imp id fun ⟨bs, g1, _, g2⟩ => ⟨bs, g1, g2⟩)
  have hperm := sortTerms_perm terms
  have hlenT : (∀ t ∈ terms, t.length ≤ 39000000) ∧ (terms.map List.length).sum + terms.length ≤ 39000001 := by
    rcases hdict with ⟨_, rfl⟩ | ⟨bs, _, g1, g2⟩
    · simp
    · obtain ⟨s1, s2⟩ := lines_sum g2
      exact ⟨fun t ht => by have := s2 t ht; omega, by omega⟩
  have hsum : ((sortTerms terms).map List.length).sum = (terms.map List.length).sum := (hperm.map _).sum_nat
  obtain ⟨k, hk, hd⟩ := hfin.dictionary fun t ht => by
    have := hlenT.1 t (hperm.mem_iff.1 ht); omega
  have hsz : d.size = terms.length := by rw [hfin.size, hperm.length_eq]
  obtain ⟨run, bs, g⟩ := demo_run (T := (· ∈ terms)) hopts hdawg (by omega) hd
    (fun t => (hfin.accepts t).trans hperm.mem_iff)
    (fun a hr => by obtain ⟨j, _, _, rfl⟩ := hfin.range a hr; exact h64 j (by have := hlenT.2; omega)) (by omega) hfin.counted
    (by rw [hsum]; have := hlenT.2; omega) (hfin.destroy ha.fresh) hqs hrest hlen
  rw [hsz] at g
  exact ⟨run, bs, g⟩

/-- C63, a run with a serialized dictionary of the terms `T`: the answers are those for `T`, whatever the dictionary file
contains. -/
theorem c63_later_run {sgn : Bool} {addr : Nat → Nat} {h : Heap} (ha : Allocator addr h) (h64 : ∀ k, k < h.count + 2 ^ 31 → addr k < 2 ^ 64)
    {fs : Files} {argv : List Str} {cli : Cli} (hopts : parseOpts (fun p => (fs.read p).isSome) argv = .ok (cli, true))
    {bytes : List UInt8} {size : Nat} {T : Str → Prop} (hser : fs.read cli.ser = some bytes) (hs : Stored bytes size T)
    {qs : List Str} (hqs : ∀ q ∈ qs, NoNewline q ∧ q ≠ []) {rest : List UInt8} (hrest : (∃ r, rest = 10 :: r) ∨ rest = [])
    (hlen : ∀ q ∈ qs, QueryFits cli.maxD q) :
    ∃ run bs, Ends (fun fuel => demoMain sgn addr fuel argv (textOf qs rest) fs h) run ∧ run.code = 0 ∧
      run.out.map (·.1) = qs ∧
      (∀ x ∈ run.out, (∀ t e, (t, e) ∈ x.2 ↔ T t ∧ IsMinCost cli.alg x.1 t e ∧ e ≤ cli.maxD) ∧
        x.2.Pairwise fun a b => shortLex sgn a.1 b.1) ∧
      Stored bs size T ∧
      run.files.read = (if fs.writable cli.ser then fun p => if p = cli.ser then some bs else fs.read p else fs.read) ∧
      run.files.writable = fs.writable ∧
      ∀ a, run.heap.mem a = h.mem a := by
  obtain ⟨h1, d, k, V, E, g1, g2, g3, g4, g5, g6, g7, g8, g9⟩ := load_spec sgn hs ha
  have hs64 : size < 2 ^ 64 := by obtain ⟨_, _, _, _, _, _, _, _, h, _⟩ := hs; exact h
  obtain ⟨run, bs, g⟩ := demo_run (T := T) (addr := addr) hopts (h1 := h1) (d := d)
    ⟨0, fun fuel _ => by
      have : deserializeFile sgn addr fs cli.ser h = .ok (h1, some d) := by simp only [deserializeFile, hser, g1]
      simp [demoDawg, this, bind, Except.bind]⟩ g2 g3 g4
    (fun a hr => by obtain ⟨j, _, _, rfl⟩ := g8 a hr; exact h64 j (by omega)) (by omega) g6 g7 g9 hqs hrest hlen
  rw [g5] at g
  exact ⟨run, bs, g⟩

/-- C63: the second of two runs, maybe on another machine with another signedness of `char`, with other options, gives the
answers for the terms of the first, even if the dictionary file has changed. -/
theorem c63_second_run_same_terms {sgn : Bool} {addr : Nat → Nat} {h : Heap} (ha : Allocator addr h)
    (h64 : ∀ k, k < h.count + 2 ^ 31 → addr k < 2 ^ 64) {fs : Files} {argv : List Str} {cli : Cli}
    (hopts : parseOpts (fun p => (fs.read p).isSome) argv = .ok (cli, true)) (hw : fs.writable cli.ser = true)
    (hser : ∀ bs, fs.read cli.ser = some bs → decodeMsg bs = none) {text : List UInt8} {terms : List Str}
    (hdict : fs.read cli.dict = some text) (htext : text.length ≤ 39000000) (hlines : Lines text terms)
    {qs : List Str} (hqs : ∀ q ∈ qs, NoNewline q ∧ q ≠ []) (hlen : ∀ q ∈ qs, QueryFits cli.maxD q) :
    ∃ run, Ends (fun fuel => demoMain sgn addr fuel argv (textOf qs []) fs h) run ∧
      ∀ (sgn' : Bool) (addr' : Nat → Nat) (h' : Heap), Allocator addr' h' → (∀ k, k < h'.count + 2 ^ 31 → addr' k < 2 ^ 64) →
      ∀ (fs' : Files) (argv' : List Str) (cli' : Cli),
        parseOpts (fun p => (fs'.read p).isSome) argv' = .ok (cli', true) → (∀ q ∈ qs, QueryFits cli'.maxD q) →
        fs'.read cli'.ser = run.files.read cli.ser →
        ∃ run', Ends (fun fuel => demoMain sgn' addr' fuel argv' (textOf qs []) fs' h') run' ∧ run'.code = 0 ∧
          run'.out.map (·.1) = qs ∧
          ∀ x ∈ run'.out, ∀ t e, (t, e) ∈ x.2 ↔ t ∈ terms ∧ IsMinCost cli'.alg x.1 t e ∧ e ≤ cli'.maxD := by
  obtain ⟨run, bs, g1, _, _, _, g2, g3, _⟩ := c63_first_run (sgn := sgn) ha h64 hopts hser (.inr ⟨text, hdict, htext, hlines⟩) hqs
    (.inr rfl) hlen
  refine ⟨run, g1, fun sgn' addr' h' ha' h64' fs' argv' cli' hopts' hlen' hr => ?_⟩
  obtain ⟨run', _, k1, k2, k3, k4, _⟩ := c63_later_run (sgn := sgn') ha' h64' hopts'
    (by rw [hr, g3, if_pos hw]; simp) g2 hqs (.inr rfl) hlen'
  exact ⟨run', k1, k2, k3, fun x hx => (k4 x hx).1⟩

/-- Files: a dictionary of the terms "ab", "b" and "ab", the last line without newline, and nothing else. -/
def exFiles : Files :=
  { read := fun p => if p = [100] then some [97, 98, 10, 98, 10, 97, 98] else none, writable := fun _ => true }

/-- The program called as `demo --dictionary-path d --serialization-path s --max-distance 1`. -/
def exArgv : List Str :=
  [lit "demo", lit "--dictionary-path", [100], lit "--serialization-path", [115], lit "--max-distance", lit "1"]

-- the queries "a" and "abb", then an empty line; then the same without the dictionary file
set_option synthInstance.maxSize 1000 in
example : (demoMain true (fun k => k + 1) 200 exArgv [97, 10, 97, 98, 98, 10, 10, 120] exFiles exHeap).map
    (fun r => (r.code, r.out, r.files.read [115], (List.range 20).all fun a => (r.heap.mem a).isNone)) =
    .ok (0, [([97], [([98], 1), ([97, 98], 1)]), ([97, 98, 98], [([97, 98], 1)])],
      some [10, 3, 1, 2, 3, 18, 1, 3, 26, 6, 8, 1, 16, 97, 24, 2, 26, 6, 8, 1, 16, 98, 24, 3, 26, 6, 8, 2, 16, 98, 24, 3,
        32, 1, 40, 3], true) := by decide +kernel

example : (demoMain false (fun k => k + 1) 200 [lit "demo", lit "--serialization-path", [115], lit "--standard"] [97, 10]
    { exFiles with read := fun p => if p = [115] then some [10, 3, 1, 2, 3, 18, 1, 3, 26, 6, 8, 1, 16, 97, 24, 2, 26, 6, 8,
        1, 16, 98, 24, 3, 26, 6, 8, 2, 16, 98, 24, 3, 32, 1, 40, 3] else none } exHeap).map
    (fun r => (r.code, r.out)) = .ok (0, [([97], [([98], 1), ([97, 98], 1)])]) := by decide +kernel

-- the hypotheses of the theorems
example : parseOpts (fun p => (exFiles.read p).isSome) exArgv =
    .ok ({ code := 0, dict := [100], ser := [115], alg := .transposition, maxD := 1 }, true) := by decide +kernel

example : Lines [97, 98, 10, 98, 10, 97, 98] [[97, 98], [98], [97, 98]] :=
  ⟨[[97, 98], [98]], [97, 98], by decide, by simp [NoNewline], by simp [NoNewline], by simp⟩

-- all of them at once
example : ∃ run, Ends (fun fuel => demoMain true (fun k => k + 1) fuel exArgv (textOf [[97], [97, 98, 98]] []) exFiles exHeap) run :=
  have ⟨run, _, h, _⟩ := c63_first_run (sgn := true) exAllocator (fun k hk => by simp only [exHeap] at hk ⊢; omega)
    (fs := exFiles) (argv := exArgv) (cli := { code := 0, dict := [100], ser := [115], alg := .transposition, maxD := 1 })
    (by decide +kernel) (by intro bs h; simp [exFiles] at h) (terms := [[97, 98], [98], [97, 98]])
    (.inr ⟨[97, 98, 10, 98, 10, 97, 98], rfl, by simp,
      [[97, 98], [98]], [97, 98], by decide, by simp [NoNewline], by simp [NoNewline], by simp⟩)
    (qs := [[97], [97, 98, 98]]) (by simp [NoNewline]) (rest := []) (.inr rfl) (by decide)
  ⟨run, h⟩

-- a file with the dictionary of the empty term
example : Stored [10, 1, 1, 18, 1, 1, 32, 1, 40, 1] 1 (· = []) :=
  ⟨{ nodeIds := [1], finalIds := [1], edges := [], rootId := 1, size := 1 }, fun _ => 0, by decide +kernel,
    ⟨by simp, by simp, by simp, by simp⟩, by simp, by simp, fun x hx => by simp at hx; subst hx; exact .refl, rfl, by simp,
    by simp, fun t => ⟨fun h => by
      generalize hx : (1 : Nat) = x at h
      cases h with
      | here => rfl
      | step he => simp at he, fun h => by subst h; exact .here (by simp)⟩⟩

/-! ### C66: the options -/

/-- C66, options that are understood: of each kind the last counts, otherwise the default.  If neither file exists
afterwards, the program ends with code 3. -/
theorem c66_options (ex : Str → Bool) (arg0 : Str) {items : List CliItem} (h : ∀ p, .dict p ∈ items → ex p = true) :
    ∃ cli : Cli, cli.dict = (items.filterMap CliItem.dict?).getLast?.getD (lit "../resources/programming-languages.txt") ∧
      cli.ser = (items.filterMap CliItem.ser?).getLast?.getD (lit "programming-languages.pb") ∧
      cli.alg = (items.filterMap CliItem.alg?).getLast?.getD .transposition ∧
      cli.maxD = (items.filterMap CliItem.dist?).foldl (fun old s => parseSize s old) 2 ∧
      parseOpts ex (arg0 :: items.flatMap CliItem.render) =
        if ex cli.dict = true ∨ ex cli.ser = true then .ok ({ cli with code := 0 }, true) else .ok ({ cli with code := 3 }, false) := by
  refine ⟨items.foldl CliItem.apply Cli.initial, ?_, ?_, ?_, ?_, ?_⟩
  · rw [foldl_apply]; rfl
  · rw [foldl_apply]; rfl
  · rw [foldl_apply]; rfl
  · rw [foldl_apply]; rfl
  · have e := parseLoop_list ex [arg0] (items.flatMap CliItem.render) ((arg0 :: items.flatMap CliItem.render).length + 1)
      (by simp; omega) Cli.initial
    have e2 := parseList_items ex h [] Cli.initial
    rw [List.append_nil] at e2
    rw [e2] at e
    simp only [List.cons_append, List.nil_append, List.length_cons, List.length_nil, Nat.zero_add, parseList] at e
    have hc : (items.foldl CliItem.apply Cli.initial).code = 0 := by rw [foldl_apply]; rfl
    generalize items.foldl CliItem.apply Cli.initial = c at e hc
    obtain ⟨c1, c2, c3, c4, c5⟩ := c
    simp only at hc
    subst hc
    simp only [parseOpts, List.length_cons, bind, Except.bind, e]
    cases h1 : ex c2 <;> cases h2 : ex c3 <;> simp

/-- C66, options that are refused, after any that are understood: help gives code 0, a missing value 2, a dictionary file
that does not exist 3, anything else 4. -/
theorem c66_refused (ex : Str → Bool) (arg0 : Str) {items : List CliItem} (h : ∀ p, .dict p ∈ items → ex p = true)
    {rest : List Str} {code : Nat} (hr : CliRefused ex rest code) :
    ∃ cli, parseOpts ex (arg0 :: (items.flatMap CliItem.render ++ rest)) = .ok (cli, false) ∧ cli.code = code := by
  have e := parseLoop_list ex [arg0] (items.flatMap CliItem.render ++ rest)
    ((arg0 :: (items.flatMap CliItem.render ++ rest)).length + 1) (by simp; omega) Cli.initial
  rw [parseList_items ex h] at e
  obtain ⟨g1, g2⟩ := parseList_refused hr (items.foldl CliItem.apply Cli.initial)
  simp only [List.cons_append, List.nil_append, List.length_cons, List.length_nil, Nat.zero_add] at e
  generalize parseList ex rest (items.foldl CliItem.apply Cli.initial) = r at *
  obtain ⟨c, b⟩ := r
  simp only at g1 g2
  subst g1
  refine ⟨c, ?_, g2⟩
  simp only [parseOpts, List.length_cons, bind, Except.bind, e]
  rfl

/-- C66: there are no other cases, so the arguments are never read out of bounds, and the program never does anything but
end when an option is refused. -/
theorem c66_all_cases (ex : Str → Bool) (args : List Str) :
    ∃ (items : List CliItem) (rest : List Str), args = items.flatMap CliItem.render ++ rest ∧
      (∀ p, .dict p ∈ items → ex p = true) ∧ (rest = [] ∨ ∃ code, CliRefused ex rest code) :=
  cli_decomposed ex args

/-- C66: a refused option leaves everything as it was. -/
theorem c66_refused_changes_nothing {sgn : Bool} {addr : Nat → Nat} {h : Heap} {fs : Files} {argv : List Str} {cli : Cli}
    (hopts : parseOpts (fun p => (fs.read p).isSome) argv = .ok (cli, false)) (fuel : Nat) (stdin : List UInt8) :
    demoMain sgn addr fuel argv stdin fs h = .ok { code := cli.code, out := [], files := fs, heap := h } := by
  simp [demoMain, hopts, bind, Except.bind]

/-- C66: a numeral, also with leading zeros, is the maximum distance, or the largest one if it is larger. -/
theorem c66_decimal_distance (k n old : Nat) : parseSize (List.replicate k 48 ++ numeral n) old = min n (2 ^ 64 - 1) := by
  have h : ReadsSize old ([] ++ [] ++ (List.replicate k 48 ++ numeral n) ++ []) _ :=
    .number (by simp [Blank]) (.inl rfl) (by simp [NoDigit])
  have := ReadsSize.parseSize h
  simp only [List.nil_append, List.append_nil] at this
  rw [this]
  split
  · omega
  · rw [if_neg (by decide)]; omega

/-- C66: what any other value of `--max-distance` gives. -/
theorem c66_all_distances (s : Str) (old v : Nat) : parseSize s old = v ↔ ReadsSize old s v :=
  ⟨fun h => by obtain ⟨w, hw⟩ := readsSize_all old s; rw [← h, ReadsSize.parseSize hw]; exact hw, ReadsSize.parseSize⟩

/-- C66, the claim that other values of `--max-distance` are refused is false: "-1" is the largest distance, "x" is 0,
"1x" is 1 and an empty value is ignored. -/
theorem c66_bad_distances_accepted :
    parseSize (lit "-1") 2 = 2 ^ 64 - 1 ∧ parseSize (lit "x") 2 = 0 ∧ parseSize (lit "1x") 2 = 1 ∧
    parseSize (lit "") 2 = 2 := by decide +kernel

example : parseOpts (fun p => p = [100]) [lit "demo", lit "--standard", lit "--max-distance", lit "7", lit "--dictionary-path",
    [100], lit "--merge-and-split"] =
    .ok ({ code := 0, dict := [100], ser := lit "programming-languages.pb", alg := .mergeAndSplit, maxD := 7 }, true) := by
  decide +kernel

example : parseOpts (fun p => p = [100]) [lit "demo", lit "--standard", lit "--max-distance"] =
    .ok ({ Cli.initial with alg := .standard, code := 2 }, false) := by decide +kernel

example : numeral 1234 = lit "1234" ∧ numeral 0 = lit "0" := by decide +kernel

example : ReadsSize 2 (lit "  -0012x") (2 ^ 64 - 12) := by
  have h : ReadsSize 2 (lit "  " ++ lit "-" ++ (List.replicate 2 48 ++ numeral 12) ++ lit "x") _ :=
    .number (by unfold Blank; decide) (by unfold Sign; decide) (by simp [NoDigit, lit])
  rwa [show lit "  " ++ lit "-" ++ (List.replicate 2 48 ++ numeral 12) ++ lit "x" = lit "  -0012x" by decide +kernel,
    if_neg (by decide), if_pos rfl] at h

/-! ### C67: inputs for which the program does not end properly -/

/-- C67: a last line of the input without newline makes the program repeat the query for ever: `std::getline` leaves the
string as it is when the stream has ended before. -/
theorem c67_unterminated_line_never_ends {sgn : Bool} {addr : Nat → Nat} {h : Heap} (ha : Allocator addr h)
    {fs : Files} {argv : List Str} {cli : Cli} (hopts : parseOpts (fun p => (fs.read p).isSome) argv = .ok (cli, true))
    (hser : ∀ bs, fs.read cli.ser = some bs → decodeMsg bs = none) {terms : List Str}
    (hdict : (fs.read cli.dict = none ∧ terms = []) ∨
      ∃ bs, fs.read cli.dict = some bs ∧ bs.length < 2 ^ 31 ∧ Lines bs terms)
    {qs : List Str} (hqs : ∀ q ∈ qs, NoNewline q ∧ q ≠ []) {last : Str} (hl : NoNewline last) (hne : last ≠ [])
    (hlen : ∀ q ∈ qs ++ [last], QueryFits cli.maxD q) :
    ∃ N, ∀ fuel, N ≤ fuel → demoMain sgn addr fuel argv (textOf qs last) fs h = .error .diverge := by
  obtain ⟨h1, d, ⟨N, hN⟩, hfin, _⟩ := demoDawg_build (sgn := sgn) ha hser
    (hdict.imp id fun ⟨bs, g1, _, g2⟩ => ⟨bs, g1, g2⟩)
  have hperm := sortTerms_perm terms
  have hd := hfin.dictionary fun t ht => by
    have ht := hperm.mem_iff.1 ht
    rcases hdict with ⟨_, rfl⟩ | ⟨bs, _, g1, g2⟩
    · simp at ht
    · have := (lines_sum g2).2 t ht; omega
  have hn := parseOpts_maxD hopts
  obtain ⟨M, hM⟩ : ∃ M, ∀ q ∈ qs ++ [last], ∀ fuel, M ≤ fuel →
      ∃ rs, transduce cli.alg updCandidate ([], 0) h1.mem d.root q cli.maxD fuel = .ok rs := by
    generalize qs ++ [last] = l at hlen
    induction l with
    | nil => exact ⟨0, by simp⟩
    | cons q l ih =>
      obtain ⟨M, hM⟩ := ih fun q' hq' => hlen q' (by simp [hq'])
      obtain ⟨rs, ⟨K, hK⟩, _⟩ := query_exact cli.alg hd (hlen q (by simp)) hn
      refine ⟨max M K, fun q' hq' fuel hf => ?_⟩
      rcases List.mem_cons.1 hq' with rfl | hq'
      · exact ⟨rs, hK fuel (by omega) _⟩
      · exact hM q' hq' fuel (by omega)
  refine ⟨max N M, fun fuel hf => ?_⟩
  have e1 : demoDawg sgn addr fuel fs cli h = .ok (h1, some d) := hN fuel (by omega)
  have e2 := demoLoop_unterminated (A := cli.alg) (n := cli.maxD) (mem := h1.mem) (root := d.root) hqs hl hne fuel fuel
    (fun q hq => hM q hq fuel (by omega)) []
  simp [demoMain, hopts, bind, Except.bind, e1, e2]

-- the query "a" without newline
example : (demoMain true (fun k => k + 1) 200 exArgv [97] exFiles exHeap).map (fun r => r.code) = .error .diverge := by
  decide +kernel

/-- C67: the program is undefined for every input if the serialization file is a message without its root, for example
empty. -/
theorem c67_rootless_file_undefined {sgn : Bool} {addr : Nat → Nat} {h : Heap} (ha : Allocator addr h)
    {fs : Files} {argv : List Str} {cli : Cli} (hopts : parseOpts (fun p => (fs.read p).isSome) argv = .ok (cli, true))
    {bytes : List UInt8} {msg : Msg} (hser : fs.read cli.ser = some bytes) (hdec : decodeMsg bytes = some msg)
    (hroot : msg.rootId ∉ msg.nodeIds) (stdin : List UInt8) (fuel : Nat) :
    demoMain sgn addr (fuel + 1) argv stdin fs h = .error .ub := by
  cases hfp : fromProto sgn addr msg h with
  | error e =>
    have : e = .ub := fromProto_error hfp
    subst this
    simp [demoMain, hopts, bind, Except.bind, demoDawg, deserializeFile, hser, deserializeStream, hdec, hfp]
  | ok r =>
    obtain ⟨h', d⟩ := r
    obtain ⟨h1, h2, h3⟩ := fromProto_unlisted_root ha hroot hfp
    have e1 : demoDawg sgn addr (fuel + 1) fs cli h = .ok (h', some d) := by
      simp [demoDawg, deserializeFile, hser, deserializeStream, hdec, hfp, bind, Except.bind, pure, Except.pure]
    have hm : h'.mem d.root = none := by rw [h1]; exact h2
    have e2 : ∀ q, transduce cli.alg updCandidate ([], 0) h'.mem d.root q cli.maxD (fuel + 1) = .error .ub := by
      intro q
      simp [transduce, queryAll, queryBegin, deref, hm, bind, Except.bind, Except.map]
    have e3 : serializeFile sgn h'.mem (fuel + 1) d.root d.size fs cli.ser = .error .ub := by
      simp [serializeFile, serializeStream, toProto, collectNodes, deref, hm, bind, Except.bind]
    simp only [demoMain, hopts, bind, Except.bind, e1, Bool.not_true, Bool.false_eq_true, if_false, demoLoop]
    generalize getline (IStream.open stdin) [] = g
    obtain ⟨s, q⟩ := g
    by_cases hq : q = []
    · simp [hq, e3]
    · simp [hq, e2]

/-- C67: an empty serialization file. -/
theorem c67_empty_file_undefined {sgn : Bool} {addr : Nat → Nat} {h : Heap} (ha : Allocator addr h)
    {fs : Files} {argv : List Str} {cli : Cli} (hopts : parseOpts (fun p => (fs.read p).isSome) argv = .ok (cli, true))
    (hser : fs.read cli.ser = some []) (stdin : List UInt8) (fuel : Nat) :
    demoMain sgn addr (fuel + 1) argv stdin fs h = .error .ub :=
  c67_rootless_file_undefined ha hopts hser (msg := Msg.empty) (by decide +kernel) (by simp [Msg.empty]) stdin fuel

/-- C67: a dictionary whose message is too large to be written leaves an empty file. -/
theorem c67_too_large_leaves_empty_file {sgn : Bool} {mem : Mem} {root size : Nat} {fs : Files} {path : Str}
    (hw : fs.writable path = true) (hbig : Ends (fun fuel => serializeStream sgn mem fuel root size) none) :
    ∃ fs', Ends (fun fuel => serializeFile sgn mem fuel root size fs path) (fs', false) ∧ fs'.read path = some [] := by
  obtain ⟨N, hN⟩ := hbig
  refine ⟨{ fs with read := fun p => if p = path then some [] else fs.read p }, ⟨N, fun fuel hf => ?_⟩, by simp⟩
  have : serializeStream sgn mem fuel root size = .ok none := hN fuel hf
  simp [serializeFile, this, bind, Except.bind, hw]

/-- C67, the claim that the program ends properly for every input and all files is false. -/
theorem c67_not_total :
    ¬ ∀ (sgn : Bool) (addr : Nat → Nat) (h : Heap) (fs : Files) (argv : List Str) (stdin : List UInt8),
      Allocator addr h → ∃ run, Ends (fun fuel => demoMain sgn addr fuel argv stdin fs h) run := by
  intro hall
  obtain ⟨run, N, hN⟩ := hall true (fun k => k + 1) exHeap { exFiles with read := fun p => if p = [100] then some [] else none }
    [[], lit "--serialization-path", [100]] [] exAllocator
  have h1 := hN (N + 1) (by omega)
  have h2 := c67_empty_file_undefined (sgn := true) exAllocator
    (fs := { exFiles with read := fun p => if p = [100] then some [] else none })
    (argv := [[], lit "--serialization-path", [100]]) (cli := { Cli.initial with ser := [100] }) (by decide +kernel)
    (by decide +kernel) [] N
  simp only [] at h1
  rw [h2] at h1
  cases h1

/-- C67, what holds: with a dictionary file that is not too large and no serialized dictionary, the program ends with code 0
for every input whose last line is complete (or that has an empty line), with query terms of fewer than 2^31 characters. -/
theorem c67_ends_partial {sgn : Bool} {addr : Nat → Nat} {h : Heap} (ha : Allocator addr h) (h64 : ∀ k, k < h.count + 2 ^ 31 → addr k < 2 ^ 64)
    {fs : Files} {argv : List Str} {cli : Cli} (hopts : parseOpts (fun p => (fs.read p).isSome) argv = .ok (cli, true))
    (hser : ∀ bs, fs.read cli.ser = some bs → decodeMsg bs = none)
    (hdict : ∀ bs, fs.read cli.dict = some bs → bs.length ≤ 39000000) {stdin : List UInt8} (hlen : stdin.length < 2 ^ 31)
    (hend : stdin = [] ∨ stdin.getLast? = some 10 ∨ (∃ r, stdin = 10 :: r) ∨ ∃ l r, stdin = l ++ 10 :: 10 :: r) :
    ∃ run, Ends (fun fuel => demoMain sgn addr fuel argv stdin fs h) run ∧ run.code = 0 := by
  obtain ⟨qs, rest, rfl, g1, g2⟩ := queries_exist hend
  obtain ⟨terms, hterms⟩ : ∃ terms, (fs.read cli.dict = none ∧ terms = []) ∨
      ∃ bs, fs.read cli.dict = some bs ∧ bs.length ≤ 39000000 ∧ Lines bs terms := by
    cases hr : fs.read cli.dict with
    | none => exact ⟨[], .inl ⟨rfl, rfl⟩⟩
    | some bs =>
      obtain ⟨ls, last, k1, k2, k3⟩ := textOf_exists bs
      exact ⟨_, .inr ⟨bs, rfl, hdict bs hr, ls, last, k1.symm, k2, k3, rfl⟩⟩
  obtain ⟨run, _, k1, k2, _⟩ := c63_first_run (sgn := sgn) ha h64 hopts hser hterms g1 g2 fun q hq => by
    have : q.length ≤ (textOf qs rest).length := textOf_length hq
    exact .of_short (by omega)
  exact ⟨run, k1, k2⟩

end Lev.Props
