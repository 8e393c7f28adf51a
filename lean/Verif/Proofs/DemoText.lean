import Verif.Model.DemoText
import Verif.Spec.DemoText
import Verif.Proofs.Demo

/-!
# The texts of the demo program
-/

namespace Lev

open Spec

theorem putDigits_numeral (n : Nat) (buf : Str) : putDigits n buf = numeral n ++ buf := by
  induction n using Nat.strongRecOn generalizing buf with
  | ind n ih =>
    rw [putDigits, numeral]
    split
    · rfl
    · rw [ih (n / 10) (by omega)]; simp

theorem putSize_numeral (n : Nat) : putSize n = numeral n := by simp [putSize, putDigits_numeral]

theorem printPrompt_question : printPrompt = question := by decide +kernel

theorem printCandidate_resultLine (q : Str) (c : Str × Nat) : printCandidate q c = resultLine q c.1 c.2 := by
  simp only [printCandidate, resultLine, putSize_numeral]; rfl

/-! ## With and without texts -/

theorem parseLoopT_eq (ex : Str → Bool) (argv : List Str) (fuel i : Nat) (cli : Cli) :
    (parseLoopT ex argv fuel i cli).map (fun r => (r.1, r.2.1)) = parseLoop ex argv fuel i cli := by
  induction fuel generalizing i cli with
  | zero => rfl
  | succ fuel ih =>
    rw [parseLoopT, parseLoop]
    split
    · rfl
    cases argv[i]? with
    | none => rfl
    | some arg =>
      dsimp only
      split
      · rfl
      split
      · split
        · cases argv[i + 1]? with
          | none => rfl
          | some p =>
            dsimp only
            split
            · exact ih _ _
            · rfl
        · rfl
      split
      · split
        · cases argv[i + 1]? with
          | none => rfl
          | some p => exact ih _ _
        · rfl
      split
      · exact ih _ _
      split
      · exact ih _ _
      split
      · exact ih _ _
      split
      · split
        · rfl
        · cases argv[i + 1]? with
          | none => rfl
          | some p => exact ih _ _
      · rfl

theorem parseLoopT_go {ex : Str → Bool} {argv : List Str} {fuel i : Nat} {cli cli' : Cli} {err : Str}
    (h : parseLoopT ex argv fuel i cli = .ok (cli', true, err)) : err = [] := by
  induction fuel generalizing i cli with
  | zero => cases h
  | succ fuel ih =>
    simp only [parseLoopT] at h
    repeat' split at h
    all_goals first
      | exact ih h
      | (simp only [Except.ok.injEq, Prod.mk.injEq, reduceCtorEq, false_and, and_false] at h; try exact h.2.2.symm)
      | cases h

/-- The texts of `parse_opts`: none on `std::cerr` when the options are accepted, none on `std::cout` otherwise. -/
theorem parseOptsT_ok {ex : Str → Bool} {argv : List Str} {cli : Cli} (h : parseOpts ex argv = .ok (cli, true)) :
    parseOptsT ex argv = .ok { cli := cli, go := true, out := printConfig cli, err := [] } := by
  simp only [parseOpts, parseOptsT, bind, Except.bind] at h ⊢
  rw [← parseLoopT_eq] at h
  cases e : parseLoopT ex argv (argv.length + 1) 1 Cli.initial with
  | error e' => rw [e] at h; cases h
  | ok r =>
    obtain ⟨c, go, err⟩ := r
    rw [e] at h
    simp only [Except.map] at h ⊢
    cases go
    · simp at h
    · simp only [Bool.not_true, Bool.false_eq_true, if_false] at h ⊢
      split at h
      · simp at h
      · next hx =>
        simp only [Except.ok.injEq, Prod.mk.injEq, and_true] at h
        subst h
        rw [if_neg hx, parseLoopT_go e]

theorem parseOptsT_refused {ex : Str → Bool} {argv : List Str} {cli : Cli} (h : parseOpts ex argv = .ok (cli, false)) :
    ∃ err, parseOptsT ex argv = .ok { cli := cli, go := false, out := [], err := err } := by
  simp only [parseOpts, parseOptsT, bind, Except.bind] at h ⊢
  rw [← parseLoopT_eq] at h
  cases e : parseLoopT ex argv (argv.length + 1) 1 Cli.initial with
  | error e' => rw [e] at h; cases h
  | ok r =>
    obtain ⟨c, go, err⟩ := r
    rw [e] at h
    simp only [Except.map] at h ⊢
    cases go
    · simp only [Bool.not_false, if_true, Except.ok.injEq, Prod.mk.injEq, and_true] at h ⊢
      subst h
      exact ⟨_, rfl⟩
    · simp only [Bool.not_true, Bool.false_eq_true, if_false] at h ⊢
      split at h
      · next hx =>
        simp only [Except.ok.injEq, Prod.mk.injEq, and_true] at h
        subst h
        rw [if_pos hx]
        exact ⟨_, rfl⟩
      · simp at h

theorem demoLoopT_eq (A : Algorithm) (n : Nat) (mem : Mem) (root bound fuel : Nat) (s : IStream) (term : Str) :
    demoLoopT A n mem root bound fuel s term = (demoLoop A n mem root bound fuel s term).map
      fun out => out.flatMap (fun x => question ++ x.2.flatMap fun c => resultLine x.1 c.1 c.2) ++ question := by
  induction fuel generalizing s term with
  | zero => rfl
  | succ fuel ih =>
    simp only [demoLoopT, demoLoop]
    generalize getline s term = g
    obtain ⟨s', t'⟩ := g
    simp only
    split
    · simp [Except.map, printPrompt_question]
    · cases h : transduce A updCandidate ([], 0) mem root t' n bound with
      | error e => rfl
      | ok rs =>
        simp only [bind, Except.bind, ih]
        cases h2 : demoLoop A n mem root bound fuel s' t' with
        | error e => rfl
        | ok out =>
          simp only [Except.map, List.flatMap_cons, printPrompt_question, List.append_assoc]
          congr 4
          funext c
          exact printCandidate_resultLine t' c

theorem demoMainT_eq {sgn : Bool} {addr : Nat → Nat} {argv : List Str} {fs : Files} {cli : Cli}
    (hopts : parseOpts (fun p => (fs.read p).isSome) argv = .ok (cli, true)) (fuel : Nat) (stdin : List UInt8) (h : Heap) :
    demoMainT sgn addr fuel argv stdin fs h = (demoMain sgn addr fuel argv stdin fs h).map fun r =>
      { code := r.code, out := printConfig cli ++ conversation r.out, err := [], files := r.files, heap := r.heap } := by
  simp only [demoMainT, demoMain, hopts, parseOptsT_ok hopts, bind, Except.bind, Bool.not_true, Bool.false_eq_true, if_false]
  cases h1 : demoDawg sgn addr fuel fs cli h with
  | error e => rfl
  | ok r =>
    obtain ⟨h', r⟩ := r
    cases r with
    | none => rfl
    | some d =>
      simp only [demoLoopT_eq]
      cases h2 : demoLoop cli.alg cli.maxD h'.mem d.root fuel fuel (.open stdin) [] with
      | error e => rfl
      | ok out =>
        simp only [Except.map]
        cases h3 : serializeFile sgn h'.mem fuel d.root d.size fs cli.ser with
        | error e => rfl
        | ok r =>
          simp only
          cases h4 : destroyDawg fuel h' d with
          | error e => rfl
          | ok h'' =>
            simp only [conversation, Except.ok.injEq, DemoRunT.mk.injEq, true_and, and_true]
            simp only [List.append_assoc, List.append_cancel_left_eq]
            decide +kernel

/-! ## The texts about the options -/

theorem putPath_quoted (p : Str) : putPath p = quoted p := by
  have e : lit "\"\\" = [34, 92] := by decide
  simp only [putPath, quoted, e, List.mem_cons, List.not_mem_nil, or_false]
  rfl

theorem printHelp_helpText : printHelp = helpText := by
  unfold printHelp helpText ln
  generalize hl : lit = f
  clear hl
  simp only [List.flatMap_cons, List.flatMap_nil, List.append_assoc, List.append_nil]

attribute [local irreducible] printHelp helpText

theorem printConfig_configText (cli : Cli) : printConfig cli = configText cli.dict cli.ser cli.alg cli.maxD := by
  have e1 : lit "Using configuration:\n  dictionary-path: " = ln "Using configuration:" ++ lit "  dictionary-path: " := by decide +kernel
  have e2 : lit "\n  serialization-path: " = [10] ++ lit "  serialization-path: " := by decide
  have e3 : lit "\n  algorithm: " = [10] ++ lit "  algorithm: " := by decide
  have e4 : lit "\n  max-distance: " = [10] ++ lit "  max-distance: " := by decide
  have e5 : lit "\n" = [10] := by decide
  simp only [printConfig, configText, e1, e2, e3, e4, e5, putPath_quoted, putSize_numeral, List.append_assoc]
  cases cli.alg <;> rfl

theorem parseLoopT_item (ex : Str → Bool) (pre rest : List Str) (it : CliItem) (h : ∀ p, it = .dict p → ex p = true)
    (fuel : Nat) (cli : Cli) :
    parseLoopT ex (pre ++ (it.render ++ rest)) (fuel + 1) pre.length cli =
      parseLoopT ex ((pre ++ it.render) ++ rest) fuel (pre ++ it.render).length (it.apply cli) := by
  have d1 : ¬ (lit "--dictionary-path" = lit "-h" ∨ lit "--dictionary-path" = lit "--help") := by decide
  have d2 : ¬ (lit "--serialization-path" = lit "-h" ∨ lit "--serialization-path" = lit "--help") := by decide
  have d3 : ¬ (lit "--standard" = lit "-h" ∨ lit "--standard" = lit "--help") := by decide
  have d4 : ¬ (lit "--transposition" = lit "-h" ∨ lit "--transposition" = lit "--help") := by decide
  have d5 : ¬ (lit "--merge-and-split" = lit "-h" ∨ lit "--merge-and-split" = lit "--help") := by decide
  have d6 : ¬ (lit "--max-distance" = lit "-h" ∨ lit "--max-distance" = lit "--help") := by decide
  have g0 : ∀ (w : Str) (r : List Str), (pre ++ w :: r)[pre.length]? = some w := by
    intro w r; rw [List.getElem?_append_right (by omega)]; simp
  have g1 : ∀ (w p : Str) (r : List Str), (pre ++ w :: p :: r)[pre.length + 1]? = some p := by
    intro w p r; rw [List.getElem?_append_right (by omega)]; simp
  have l0 : ∀ (w : Str) (r : List Str), ¬ (pre ++ w :: r).length ≤ pre.length := by intro w r; simp
  have l1 : ∀ (w p : Str) (r : List Str), pre.length + 1 < (pre ++ w :: p :: r).length := by intro w p r; simp
  have l2 : ∀ (w p : Str) (r : List Str), ¬ pre.length + 1 = (pre ++ w :: p :: r).length := by intro w p r; simp
  have s1 : ∀ w : Str, (pre ++ [w]).length = pre.length + 1 := by simp
  have s2 : ∀ w p : Str, (pre ++ [w, p]).length = pre.length + 2 := by simp
  rw [List.append_assoc, parseLoopT]
  cases it with
  | dict p =>
    simp only [CliItem.render, List.cons_append, List.nil_append, l0, g0, d1, l1, g1, if_false, if_true, h p rfl, s2, CliItem.apply]
  | ser p =>
    have e1 : ¬ lit "--serialization-path" = lit "--dictionary-path" := by decide
    simp only [CliItem.render, List.cons_append, List.nil_append, l0, g0, d2, e1, l1, g1, if_false, if_true, s2, CliItem.apply]
  | dist s =>
    have e1 : ¬ lit "--max-distance" = lit "--dictionary-path" := by decide
    have e2 : ¬ lit "--max-distance" = lit "--serialization-path" := by decide
    have e3 : ¬ lit "--max-distance" = lit "--standard" := by decide
    have e4 : ¬ lit "--max-distance" = lit "--transposition" := by decide
    have e5 : ¬ lit "--max-distance" = lit "--merge-and-split" := by decide
    simp only [CliItem.render, List.cons_append, List.nil_append, l0, g0, d6, e1, e2, e3, e4, e5, l2, g1, if_false, if_true, s2,
      CliItem.apply]
  | alg A =>
    cases A with
    | standard =>
      have e1 : ¬ lit "--standard" = lit "--dictionary-path" := by decide
      have e2 : ¬ lit "--standard" = lit "--serialization-path" := by decide
      simp only [CliItem.render, List.cons_append, List.nil_append, l0, g0, d3, e1, e2, if_false, if_true, s1, CliItem.apply]
    | transposition =>
      have e1 : ¬ lit "--transposition" = lit "--dictionary-path" := by decide
      have e2 : ¬ lit "--transposition" = lit "--serialization-path" := by decide
      have e3 : ¬ lit "--transposition" = lit "--standard" := by decide
      simp only [CliItem.render, List.cons_append, List.nil_append, l0, g0, d4, e1, e2, e3, if_false, if_true, s1, CliItem.apply]
    | mergeAndSplit =>
      have e1 : ¬ lit "--merge-and-split" = lit "--dictionary-path" := by decide
      have e2 : ¬ lit "--merge-and-split" = lit "--serialization-path" := by decide
      have e3 : ¬ lit "--merge-and-split" = lit "--standard" := by decide
      have e4 : ¬ lit "--merge-and-split" = lit "--transposition" := by decide
      simp only [CliItem.render, List.cons_append, List.nil_append, l0, g0, d5, e1, e2, e3, e4, if_false, if_true, s1,
        CliItem.apply]

theorem parseLoopT_items (ex : Str → Bool) (pre rest : List Str) {items : List CliItem}
    (h : ∀ p, .dict p ∈ items → ex p = true) (fuel : Nat) (cli : Cli) :
    parseLoopT ex (pre ++ (items.flatMap CliItem.render ++ rest)) (fuel + items.length) pre.length cli =
      parseLoopT ex ((pre ++ items.flatMap CliItem.render) ++ rest) fuel (pre ++ items.flatMap CliItem.render).length
        (items.foldl CliItem.apply cli) := by
  induction items generalizing pre cli with
  | nil => simp
  | cons it items ih =>
    have := parseLoopT_item ex pre (items.flatMap CliItem.render ++ rest) it (fun p hp => h p (by simp [hp])) (fuel + items.length) cli
    rw [List.flatMap_cons, List.append_assoc, List.length_cons, ← Nat.add_assoc, this,
      ih (pre ++ it.render) (fun p hp => h p (by simp [hp])), List.foldl_cons]
    simp only [List.append_assoc]

theorem length_flatMap_render (items : List CliItem) : items.length ≤ (items.flatMap CliItem.render).length := by
  induction items with
  | nil => simp
  | cons it items ih =>
    have : 1 ≤ it.render.length := by
      cases it with
      | alg A => cases A <;> simp [CliItem.render]
      | _ => simp [CliItem.render]
    rw [List.flatMap_cons, List.length_append, List.length_cons]
    omega

theorem parseLoopT_complaint {ex : Str → Bool} {rest : List Str} {msg : Str} (h : Complaint ex rest msg) (pre : List Str)
    (fuel : Nat) (cli : Cli) :
    ∃ cli', parseLoopT ex (pre ++ rest) (fuel + 1) pre.length cli = .ok (cli', false, msg) := by
  have g0 : ∀ (w : Str) (r : List Str), (pre ++ w :: r)[pre.length]? = some w := by
    intro w r; rw [List.getElem?_append_right (by omega)]; simp
  have g1 : ∀ (w p : Str) (r : List Str), (pre ++ w :: p :: r)[pre.length + 1]? = some p := by
    intro w p r; rw [List.getElem?_append_right (by omega)]; simp
  have l0 : ∀ (w : Str) (r : List Str), ¬ (pre ++ w :: r).length ≤ pre.length := by intro w r; simp
  have l1 : ∀ (w p : Str) (r : List Str), pre.length + 1 < (pre ++ w :: p :: r).length := by intro w p r; simp
  have l2 : ∀ (w : Str), ¬ pre.length + 1 < (pre ++ [w]).length := by intro w; simp
  have l3 : ∀ (w : Str), pre.length + 1 = (pre ++ [w]).length := by intro w; simp
  have hn : notEnough = lit "Not enough command-line args!\n" := by decide +kernel
  rw [parseLoopT]
  cases h with
  | help h => simp only [l0, g0, h, if_false, if_true, printHelp_helpText]; exact ⟨_, rfl⟩
  | @missing w h =>
    simp only [List.mem_cons, List.not_mem_nil, or_false] at h
    rw [← hn]
    rcases h with rfl | rfl | rfl
    · have d1 : ¬ (lit "--dictionary-path" = lit "-h" ∨ lit "--dictionary-path" = lit "--help") := by decide
      simp only [l0, g0, d1, if_false, if_true, l2]; exact ⟨_, rfl⟩
    · have d1 : ¬ (lit "--serialization-path" = lit "-h" ∨ lit "--serialization-path" = lit "--help") := by decide
      have e1 : ¬ lit "--serialization-path" = lit "--dictionary-path" := by decide
      simp only [l0, g0, d1, e1, if_false, if_true, l2]; exact ⟨_, rfl⟩
    · have d6 : ¬ (lit "--max-distance" = lit "-h" ∨ lit "--max-distance" = lit "--help") := by decide
      have e1 : ¬ lit "--max-distance" = lit "--dictionary-path" := by decide
      have e2 : ¬ lit "--max-distance" = lit "--serialization-path" := by decide
      have e3 : ¬ lit "--max-distance" = lit "--standard" := by decide
      have e4 : ¬ lit "--max-distance" = lit "--transposition" := by decide
      have e5 : ¬ lit "--max-distance" = lit "--merge-and-split" := by decide
      simp only [g0, d6, e1, e2, e3, e4, e5, if_false, if_true, ← l3,
        show ¬ pre.length + 1 ≤ pre.length by omega]; exact ⟨_, rfl⟩
  | @noFile p rest hp =>
    have d1 : ¬ (lit "--dictionary-path" = lit "-h" ∨ lit "--dictionary-path" = lit "--help") := by decide
    have e1 : lit "--dictionary-path=<PATH> must exist!\n--dictionary-path=" =
        ln "--dictionary-path=<PATH> must exist!" ++ lit "--dictionary-path=" := by decide +kernel
    have e2 : lit "\n" = [10] := by decide
    simp only [l0, g0, d1, if_false, if_true, l1, g1, hp, Bool.false_eq_true, e1, e2, putPath_quoted, List.append_assoc]
    exact ⟨_, rfl⟩
  | @unknown w rest hw =>
    simp only [cliWords, List.map_cons, List.map_nil, List.mem_cons, List.not_mem_nil, or_false, not_or] at hw
    obtain ⟨h1, h2, h3, h4, h5, h6, h7, h8⟩ := hw
    have e2 : lit "\n" = [10] := by decide
    simp only [l0, g0, h1, h2, h3, h4, h5, h6, h7, h8, or_self, if_false, printHelp_helpText, e2]; exact ⟨_, rfl⟩

theorem parseOptsT_complaint {ex : Str → Bool} {items : List CliItem} (h : ∀ p, .dict p ∈ items → ex p = true)
    {rest : List Str} {msg : Str} (hr : Complaint ex rest msg) (arg0 : Str) :
    ∃ cli, parseOptsT ex (arg0 :: (items.flatMap CliItem.render ++ rest)) =
      .ok { cli := cli, go := false, out := [], err := msg } := by
  have hl := length_flatMap_render items
  obtain ⟨k, hk⟩ : ∃ k, (arg0 :: (items.flatMap CliItem.render ++ rest)).length + 1 = (k + 1) + items.length :=
    ⟨(arg0 :: (items.flatMap CliItem.render ++ rest)).length - items.length, by
      simp only [List.length_cons, List.length_append]; omega⟩
  have e := parseLoopT_items ex [arg0] rest h (k + 1) Cli.initial
  obtain ⟨cli, e2⟩ := parseLoopT_complaint hr ([arg0] ++ items.flatMap CliItem.render) k (items.foldl CliItem.apply Cli.initial)
  rw [e2, ← hk] at e
  refine ⟨cli, ?_⟩
  simp only [parseOptsT, bind, Except.bind]
  simp only [List.cons_append, List.nil_append, List.length_singleton] at e
  rw [e]
  rfl

theorem parseOptsT_noFiles {ex : Str → Bool} {items : List CliItem} (h : ∀ p, .dict p ∈ items → ex p = true) (arg0 : Str)
    (h1 : ex (items.foldl CliItem.apply Cli.initial).dict = false) (h2 : ex (items.foldl CliItem.apply Cli.initial).ser = false) :
    ∃ cli, parseOptsT ex (arg0 :: items.flatMap CliItem.render) =
      .ok { cli := cli, go := false, out := [],
            err := noFiles (items.foldl CliItem.apply Cli.initial).dict (items.foldl CliItem.apply Cli.initial).ser } := by
  have hl := length_flatMap_render items
  obtain ⟨k, hk⟩ : ∃ k, (arg0 :: items.flatMap CliItem.render).length + 1 = (k + 1) + items.length :=
    ⟨(arg0 :: items.flatMap CliItem.render).length - items.length, by
      simp only [List.length_cons]; omega⟩
  have e := parseLoopT_items ex [arg0] [] h (k + 1) Cli.initial
  rw [← hk] at e
  simp only [List.cons_append, List.nil_append, List.length_singleton, List.append_nil] at e
  simp only [parseOptsT, bind, Except.bind]
  rw [e, parseLoopT, if_pos (Nat.le_refl _)]
  have e1 : lit "Either --dictionary-path=<PATH> or --serialization-path=<PATH> must exist\n--dictionary-path=" =
    ln "Either --dictionary-path=<PATH> or --serialization-path=<PATH> must exist" ++ lit "--dictionary-path=" := by decide +kernel
  have e2 : lit "\n--serialization-path=" = [10] ++ lit "--serialization-path=" := by decide
  have e3 : lit "\n" = [10] := by decide
  simp only [h1, h2, noFiles, e1, e2, e3, putPath_quoted, List.append_assoc, List.nil_append, Bool.not_true,
    Bool.false_eq_true, if_false, Bool.not_false, Bool.and_self, if_true]; exact ⟨_, rfl⟩

/-! ## Reading the texts -/

theorem cutLine_append {l : Str} (h : NoNewline l) (r : List UInt8) : cutLine (l ++ 10 :: r) = (l, some r) := by
  induction l with
  | nil => simp [cutLine]
  | cons c l ih =>
    have hc : c ≠ 10 := by intro e; exact h (by simp [e])
    simp [cutLine, hc, ih fun hm => h (by simp [hm])]

theorem line_inj {a b : Str} (ha : NoNewline a) (hb : NoNewline b) {r r' : List UInt8} (h : a ++ 10 :: r = b ++ 10 :: r') :
    a = b ∧ r = r' := by
  have h1 := cutLine_append ha r
  rw [h, cutLine_append hb r'] at h1
  simp at h1
  exact ⟨h1.1.symm, h1.2.symm⟩

theorem numeral_noNewline (n : Nat) : NoNewline (numeral n) := by
  intro h
  have := (numeral_spec n).1 10 h
  revert this; decide

theorem numeral_inj {n m : Nat} (h : numeral n = numeral m) : n = m := by
  rw [← (numeral_spec n).2.2, h, (numeral_spec m).2.2]

/-- A text, a character that is no digit, a numeral: the end can be read off. -/
theorem tail_numeral_inj {a b : Str} {n m : Nat} (h : a ++ [32] ++ numeral n = b ++ [32] ++ numeral m) : a = b ∧ n = m := by
  have h1 := congrArg (fun l => l.reverse.takeWhile isDigit) h
  have key : ∀ (a : Str) (n : Nat), (a ++ [32] ++ numeral n).reverse.takeWhile isDigit = (numeral n).reverse := by
    intro a n
    rw [List.reverse_append]
    have : (a ++ [32]).reverse = 32 :: a.reverse := by simp
    rw [this]
    refine takeWhile_digits (fun c hc => (numeral_spec n).1 c (List.mem_reverse.1 hc)) ?_
    intro c hc; simp only [List.head?_cons, Option.some.injEq] at hc; subst hc; left; decide
  simp only [key] at h1
  have h2 := List.reverse_inj.1 h1
  rw [h2, List.append_cancel_right_eq, List.append_cancel_right_eq] at h
  exact ⟨h, numeral_inj h2⟩

theorem resultLine_inj {q t t' : Str} {n n' : Nat} (hq : NoNewline q) (ht : NoNewline t) (ht' : NoNewline t')
    {r r' : List UInt8} (h : resultLine q t n ++ r = resultLine q t' n' ++ r') : t = t' ∧ n = n' ∧ r = r' := by
  have e : ∀ (t : Str) (n : Nat) (r : List UInt8), resultLine q t n ++ r =
      (lit "d(\"" ++ q ++ lit "\", \"" ++ t ++ lit "\") =" ++ [32] ++ numeral n) ++ 10 :: r := by
    intro t n r
    have h1 : lit "\") = " = lit "\") =" ++ [32] := by decide
    have h2 : lit "\n" = [10] := by decide
    simp only [resultLine, h1, h2, List.append_assoc, List.cons_append, List.nil_append]
  have hno : ∀ (t : Str) (n : Nat), NoNewline t →
      NoNewline (lit "d(\"" ++ q ++ lit "\", \"" ++ t ++ lit "\") =" ++ [32] ++ numeral n) := by
    intro t n ht hm
    simp only [List.mem_append] at hm
    rcases hm with ((((( hm | hm) | hm) | hm) | hm) | hm) | hm
    · revert hm; decide
    · exact hq hm
    · revert hm; decide
    · exact ht hm
    · revert hm; decide
    · revert hm; decide
    · exact numeral_noNewline n hm
  rw [e, e] at h
  obtain ⟨h1, h2⟩ := line_inj (hno t n ht) (hno t' n' ht') h
  obtain ⟨h3, h4⟩ := tail_numeral_inj h1
  rw [List.append_cancel_right_eq, List.append_cancel_left_eq] at h3
  exact ⟨h3, h4, h2⟩

theorem resultLine_head (q t : Str) (n : Nat) (r : List UInt8) : ∃ l, resultLine q t n ++ r = 100 :: l := by
  simp only [resultLine, show lit "d(\"" = 100 :: lit "(\"" by decide, List.cons_append, List.cons.injEq, true_and]
  exact ⟨_, rfl⟩

theorem results_inj {q : Str} (hq : NoNewline q) {rs rs' : List (Str × Nat)} (h1 : ∀ c ∈ rs, NoNewline c.1)
    (h2 : ∀ c ∈ rs', NoNewline c.1) {r r' : List UInt8}
    (h : rs.flatMap (fun c => resultLine q c.1 c.2) ++ 10 :: r = rs'.flatMap (fun c => resultLine q c.1 c.2) ++ 10 :: r') :
    rs = rs' ∧ r = r' := by
  induction rs generalizing rs' with
  | nil =>
    cases rs' with
    | nil => simpa using h
    | cons c rs' =>
      obtain ⟨l, hl⟩ := resultLine_head q c.1 c.2 (rs'.flatMap (fun c => resultLine q c.1 c.2) ++ 10 :: r')
      rw [List.flatMap_cons, List.append_assoc, hl] at h
      simp at h
  | cons c rs ih =>
    cases rs' with
    | nil =>
      obtain ⟨l, hl⟩ := resultLine_head q c.1 c.2 (rs.flatMap (fun c => resultLine q c.1 c.2) ++ 10 :: r)
      rw [List.flatMap_cons, List.append_assoc, hl] at h
      simp at h
    | cons c' rs' =>
      rw [List.flatMap_cons, List.flatMap_cons, List.append_assoc, List.append_assoc] at h
      obtain ⟨g1, g2, g3⟩ := resultLine_inj hq (h1 c (by simp)) (h2 c' (by simp)) h
      obtain ⟨g4, g5⟩ := ih (fun x hx => h1 x (by simp [hx])) (fun x hx => h2 x (by simp [hx])) g3
      exact ⟨by rw [g4, Prod.ext g1 g2], g5⟩

theorem question_cons : question = 10 :: lit "Enter a query term (or nothing to exit).\nquery> " := by decide +kernel

theorem conversation_cons (x : Str × List (Str × Nat)) (xs : List (Str × List (Str × Nat))) :
    ∃ r, conversation xs = 10 :: r ∧
      conversation (x :: xs) = question ++ (x.2.flatMap (fun c => resultLine x.1 c.1 c.2) ++ 10 :: r) := by
  cases xs with
  | nil =>
    refine ⟨_, by simp only [conversation, List.flatMap_nil, List.nil_append, question_cons, List.cons_append]; rfl, ?_⟩
    simp only [conversation, List.flatMap_cons, List.flatMap_nil, List.append_assoc, List.append_nil]
    congr 2
  | cons y ys =>
    refine ⟨_, by
      simp only [conversation, List.flatMap_cons, List.append_assoc]
      rw [show ∀ z : List UInt8, question ++ z = 10 :: (lit "Enter a query term (or nothing to exit).\nquery> " ++ z) from
        fun z => by rw [question_cons]; rfl], ?_⟩
    simp only [conversation, List.flatMap_cons, List.append_assoc]
    congr 2

/-- The conversation shows the answers: whoever knows the query terms can read them off. -/
theorem conversation_inj {as bs : List (Str × List (Str × Nat))} (ha : OneLine as) (hb : OneLine bs)
    (hq : as.map (·.1) = bs.map (·.1)) (h : conversation as = conversation bs) : as = bs := by
  induction as generalizing bs with
  | nil => cases bs with
    | nil => rfl
    | cons b bs => simp at hq
  | cons a as ih =>
    cases bs with
    | nil => simp at hq
    | cons b bs =>
      simp only [List.map_cons, List.cons.injEq] at hq
      obtain ⟨r, h1, h2⟩ := conversation_cons a as
      obtain ⟨r', h3, h4⟩ := conversation_cons b bs
      rw [h2, h4, List.append_cancel_left_eq, ← hq.1] at h
      obtain ⟨g1, g2⟩ := results_inj (ha a (by simp)).1 (ha a (by simp)).2 (hb b (by simp)).2 h
      have g3 := ih (bs := bs) (fun x hx => ha x (by simp [hx])) (fun x hx => hb x (by simp [hx])) hq.2 (by rw [h1, h3, g2])
      rw [g3, Prod.ext hq.1 g1]

/-! ## Reading the configuration -/

theorem quoted_inj {p p' : Str} {r r' : List UInt8}
    (h : p.flatMap (fun c => if c = 34 ∨ c = 92 then [92, c] else [c]) ++ [34] ++ r =
      p'.flatMap (fun c => if c = 34 ∨ c = 92 then [92, c] else [c]) ++ [34] ++ r') : p = p' ∧ r = r' := by
  induction p generalizing p' with
  | nil =>
    cases p' with
    | nil => simpa using h
    | cons c p' =>
      by_cases hc : c = 34 ∨ c = 92
      · simp [List.flatMap_cons, hc] at h
      · have h34 : c ≠ 34 := fun e => hc (.inl e)
        simp [List.flatMap_cons, hc] at h
        exact absurd h.1.symm h34
  | cons c p ih =>
    cases p' with
    | nil =>
      by_cases hc : c = 34 ∨ c = 92
      · simp [List.flatMap_cons, hc] at h
      · have h34 : c ≠ 34 := fun e => hc (.inl e)
        simp [List.flatMap_cons, hc] at h
        exact absurd h.1 h34
    | cons c' p' =>
      by_cases hc : c = 34 ∨ c = 92 <;> by_cases hc' : c' = 34 ∨ c' = 92
      · simp only [List.flatMap_cons, hc, hc', if_true, List.cons_append, List.nil_append, List.cons.injEq, true_and] at h
        obtain ⟨g1, g2⟩ := ih h.2
        exact ⟨by rw [h.1, g1], g2⟩
      · simp only [List.flatMap_cons, hc, hc', if_true, if_false, List.cons_append, List.nil_append, List.cons.injEq] at h
        exact absurd h.1.symm (fun e => hc' (.inr e))
      · simp only [List.flatMap_cons, hc, hc', if_true, if_false, List.cons_append, List.nil_append, List.cons.injEq] at h
        exact absurd h.1 (fun e => hc (.inr e))
      · simp only [List.flatMap_cons, hc, hc', if_false, List.cons_append, List.nil_append, List.cons.injEq] at h
        obtain ⟨g1, g2⟩ := ih h.2
        exact ⟨by rw [h.1, g1], g2⟩

theorem putPath_inj {p p' : Str} {r r' : List UInt8} (h : putPath p ++ r = putPath p' ++ r') : p = p' ∧ r = r' := by
  simp only [putPath, List.append_assoc, List.append_cancel_left_eq] at h
  exact quoted_inj (by simpa only [List.append_assoc] using h)

/-- The configuration can be read off what `print_config` writes. -/
theorem printConfig_inj {c c' : Cli} (h : printConfig c = printConfig c') :
    c.dict = c'.dict ∧ c.ser = c'.ser ∧ c.alg = c'.alg ∧ c.maxD = c'.maxD := by
  simp only [printConfig, List.append_assoc, List.append_cancel_left_eq] at h
  obtain ⟨h1, h⟩ := putPath_inj h
  simp only [List.append_cancel_left_eq] at h
  obtain ⟨h2, h⟩ := putPath_inj h
  simp only [List.append_cancel_left_eq] at h
  have h3 : c.alg = c'.alg := by
    revert h
    cases c.alg <;> cases c'.alg <;> simp [lit]
  rw [h3, List.append_cancel_left_eq, List.append_cancel_left_eq, List.append_cancel_left_eq, putSize_numeral, putSize_numeral,
    List.append_cancel_right_eq] at h
  exact ⟨h1, h2, h3, numeral_inj h⟩

end Lev
