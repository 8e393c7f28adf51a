import Verif.Proofs.DemoAny
import Verif.Props.AnyGraph
import Verif.Props.Demo

/-!
# Property C82: the demo program with any serialization file

C63 is about files the program wrote itself.  Here the file holds any bytes that can be parsed as a message (if they can not,
the program starts from the dictionary file, as in C63).
-/

namespace Lev.Props

open Lev Spec

section
variable {sgn : Bool} {addr : Nat → Nat} {h : Heap} {fs : Files} {argv : List Str} {cli : Cli} {bytes : List UInt8}
  {msg : Msg} {stdin : List UInt8} {qs : List Str} {stuck : Bool}

/-- C82: every input is a list of queries, and either ends, or has an unterminated last line. -/
theorem c82_inputs (stdin : List UInt8) : ∃ qs stuck, Asks stdin qs stuck := asks_exists stdin

/-- The program has read the file. -/
theorem demoDawg_file (hser : fs.read cli.ser = some bytes) (hdec : decodeMsg bytes = some msg) {h' : Heap} {d : SDawg}
    (hok : fromProto sgn addr msg h = .ok (h', d)) (fuel : Nat) : demoDawg sgn addr fuel fs cli h = .ok (h', some d) := by
  simp [demoDawg, deserializeFile, hser, deserializeStream, hdec, hok, bind, Except.bind, pure, Except.pure]

/-- C82, undefined behaviour: the message is not readable; or some query, the last unterminated one included, can get to a
missing node; or the input ends and a missing node can be reached at all, even if no query gets there. -/
theorem c82_undefined (ha : Allocator addr h)
    (hopts : parseOpts (fun p => (fs.read p).isSome) argv = .ok (cli, true)) (hser : fs.read cli.ser = some bytes)
    (hdec : decodeMsg bytes = some msg) (hin : Asks stdin qs stuck) (hL : ∀ q ∈ qs, QueryFits cli.maxD q ∧ q.length + cli.maxD + 2 ≤ 2 ^ 62)
    (hbad : Unreadable msg ∨ (∃ q ∈ qs, Falls cli.alg cli.maxD msg q) ∨ (stuck = false ∧ Dangling msg)) :
    ∃ N, ∀ fuel, N ≤ fuel → demoMain sgn addr fuel argv stdin fs h = .error .ub := by
  by_cases hu : Unreadable msg
  · refine ⟨0, fun fuel _ => ?_⟩
    have := (c75_read sgn ha msg).1.2 hu
    simp [demoMain, hopts, bind, Except.bind, demoDawg, deserializeFile, hser, deserializeStream, hdec, this]
  · obtain ⟨h', d, hok, _⟩ := (c75_read sgn ha msg).2 hu
    have e1 := fun fuel => demoDawg_file (cli := cli) hser hdec hok fuel
    obtain ⟨hq, hin⟩ := hin
    have hy : ∀ q ∈ qs, (∃ rs, Yields cli.alg updCandidate h'.mem d.root q cli.maxD rs) ∨
        ∃ N, ∀ fuel, N ≤ fuel → ∀ dflt, transduce cli.alg updCandidate dflt h'.mem d.root q cli.maxD fuel = .error .ub := by
      intro q hq
      obtain ⟨m1, m2⟩ := c80_messages ha hok cli.alg (hL q hq)
      by_cases hf : Falls cli.alg cli.maxD msg q
      · exact .inr (m1 hf)
      · obtain ⟨rs, g, _⟩ := m2 hf; exact .inl ⟨rs, g⟩
    have hloop : (∃ N, ∀ bound fuel, N ≤ bound → N ≤ fuel → ∀ str,
        demoLoop cli.alg cli.maxD h'.mem d.root bound fuel (.open stdin) str = .error .ub) →
        ∃ N, ∀ fuel, N ≤ fuel → demoMain sgn addr fuel argv stdin fs h = .error .ub := by
      rintro ⟨N, hN⟩
      refine ⟨N, fun fuel hf => ?_⟩
      simp [demoMain, hopts, bind, Except.bind, e1 fuel, hN fuel fuel hf hf]
    by_cases hfall : ∃ q ∈ qs, Falls cli.alg cli.maxD msg q
    · refine hloop ?_
      rcases hin with ⟨_, rest, rfl, _⟩ | ⟨_, ls, last, rfl, rfl⟩
      · obtain ⟨q, hqs, hf⟩ := hfall
        exact demoLoop_ub hq rest hy ⟨q, hqs, (c80_messages ha hok cli.alg (hL q hqs)).1 hf⟩
      · by_cases hfl : ∃ q ∈ ls, Falls cli.alg cli.maxD msg q
        · obtain ⟨q, hqs, hf⟩ := hfl
          exact demoLoop_ub (fun q hq' => hq q (by simp [hq'])) last (fun q hq' => hy q (by simp [hq']))
            ⟨q, hqs, (c80_messages ha hok cli.alg (hL q (by simp [hqs]))).1 hf⟩
        · obtain ⟨q, hqs, hf⟩ := hfall
          have hql : q = last := by
            rcases List.mem_append.1 hqs with hql | hql
            · exact absurd ⟨q, hql, hf⟩ hfl
            · exact List.mem_singleton.1 hql
          subst hql
          refine demoLoop_last_ub (fun q hq' => hq q (by simp [hq'])) (hq q (by simp)).1 (hq q (by simp)).2
            (fun q' hq' => ?_) ((c80_messages ha hok cli.alg (hL q (by simp))).1 hf)
          obtain ⟨rs, g, _⟩ := (c80_messages ha hok cli.alg (hL q' (by simp [hq']))).2 fun hf => hfl ⟨q', hq', hf⟩
          exact ⟨rs, g⟩
    · obtain ⟨rfl, hd⟩ := (hbad.resolve_left hu).resolve_left hfall
      obtain ⟨_, rest, rfl, hrest⟩ := hin.resolve_right (by simp)
      obtain ⟨out, _, _, N, hN⟩ := demoLoop_text (A := cli.alg) (n := cli.maxD) (mem := h'.mem) (root := d.root) hq rest hrest
        fun q hqs => by
          obtain ⟨rs, g, _⟩ := (c80_messages ha hok cli.alg (hL q hqs)).2 fun hf => hfall ⟨q, hqs, hf⟩
          exact ⟨rs, g⟩
      obtain ⟨φ, hr⟩ := readAny_of_ok ha hok
      obtain ⟨U, hU⟩ := hr.finite
      obtain ⟨M, hM⟩ := (toProto_graph hU hr.sorted d.size).2 (by
        have hn : ¬ AllAlive h'.mem d.root := fun hl => hr.allAlive.1 hl hd
        simp only [AllAlive, Classical.not_forall, Classical.not_not] at hn
        obtain ⟨a, ha, hm⟩ := hn
        exact ⟨a, ha, hm⟩)
      refine ⟨max N M, fun fuel hf => ?_⟩
      have e2 := hN fuel fuel (by omega) (by omega) []
      have e3 := hM fuel (by omega)
      simp [demoMain, hopts, bind, Except.bind, e1 fuel, e2, serializeFile, serializeStream, e3]

/-- C82, an unterminated last line: if no query can get to a missing node, the program answers for ever, even if the
message has missing nodes elsewhere. -/
theorem c82_stuck (ha : Allocator addr h)
    (hopts : parseOpts (fun p => (fs.read p).isSome) argv = .ok (cli, true)) (hser : fs.read cli.ser = some bytes)
    (hdec : decodeMsg bytes = some msg) (hin : Asks stdin qs true) (hL : ∀ q ∈ qs, QueryFits cli.maxD q ∧ q.length + cli.maxD + 2 ≤ 2 ^ 62)
    (hu : ¬ Unreadable msg) (hfall : ∀ q ∈ qs, ¬ Falls cli.alg cli.maxD msg q) :
    ∃ N, ∀ fuel, N ≤ fuel → demoMain sgn addr fuel argv stdin fs h = .error .diverge := by
  obtain ⟨h', d, hok, _⟩ := (c75_read sgn ha msg).2 hu
  have e1 := fun fuel => demoDawg_file (cli := cli) hser hdec hok fuel
  obtain ⟨hq, hin⟩ := hin
  obtain ⟨_, ls, last, rfl, rfl⟩ := hin.resolve_left (by simp)
  obtain ⟨M, hM⟩ : ∃ M, ∀ q ∈ ls ++ [last], ∀ fuel, M ≤ fuel →
      ∃ rs, transduce cli.alg updCandidate ([], 0) h'.mem d.root q cli.maxD fuel = .ok rs := by
    clear hq
    generalize ls ++ [last] = l at hL hfall
    induction l with
    | nil => exact ⟨0, by simp⟩
    | cons q l ih =>
      obtain ⟨M, hM⟩ := ih (fun q' hq' => hL q' (by simp [hq'])) fun q' hq' => hfall q' (by simp [hq'])
      obtain ⟨rs, ⟨K, hK⟩, _⟩ := (c80_messages ha hok cli.alg (hL q (by simp))).2 (hfall q (by simp))
      refine ⟨max M K, fun q' hq' fuel hf => ?_⟩
      rcases List.mem_cons.1 hq' with rfl | hq'
      · exact ⟨rs, hK fuel (by omega) _⟩
      · exact hM q' hq' fuel (by omega)
  refine ⟨M, fun fuel hf => ?_⟩
  have e2 := demoLoop_unterminated (A := cli.alg) (n := cli.maxD) (mem := h'.mem) (root := d.root)
    (fun q hq' => hq q (by simp [hq'])) (hq last (by simp)).1 (hq last (by simp)).2 fuel fuel
    (fun q hq => hM q hq fuel (by omega)) []
  simp [demoMain, hopts, bind, Except.bind, e1 fuel, e2]

/-- The part of a run before deletion, if no node is missing. -/
theorem demo_before_delete (ha : Allocator addr h) (h64 : ∀ k, k < h.count + msg.nodeIds.length → addr k < 2 ^ 64)
    (hdec : decodeMsg bytes = some msg) (hin : Asks stdin qs false)
    (hL : ∀ q ∈ qs, QueryFits cli.maxD q ∧ q.length + cli.maxD + 2 ≤ 2 ^ 62) (hd : ¬ Dangling msg) {h' : Heap} {d : SDawg}
    (hok : fromProto sgn addr msg h = .ok (h', d)) (fs : Files) :
    ∃ out bs fs' ok, Ends (fun fuel => demoLoop cli.alg cli.maxD h'.mem d.root fuel fuel (.open stdin) []) out ∧
      Answers sgn cli.alg cli.maxD msg qs out ∧
      Ends (fun fuel => serializeFile sgn h'.mem fuel d.root d.size fs cli.ser) (fs', ok) ∧ Saved msg bs ∧
      fs'.read = (if fs.writable cli.ser then fun p => if p = cli.ser then some bs else fs.read p else fs.read) ∧
      fs'.writable = fs.writable := by
  obtain ⟨φ, hr⟩ := readAny_of_ok ha hok
  obtain ⟨hq, hin⟩ := hin
  obtain ⟨_, rest, rfl, hrest⟩ := hin.resolve_right (by simp)
  have hex : ∀ q ∈ qs, ∃ rs : List (Str × Nat), Yields cli.alg updCandidate h'.mem d.root q cli.maxD rs ∧
      (∀ t m, (t, m) ∈ rs ↔ MsgSpells msg t ∧ IsMinCost cli.alg q t m ∧ m ≤ cli.maxD) ∧
      rs.Pairwise (fun a b => shortLex sgn a.1 b.1) := fun q hqs =>
    (c80_messages ha hok cli.alg (hL q hqs)).2 fun ⟨w, y, _, hw, hm⟩ => hd ⟨w, y, hw, hm⟩
  obtain ⟨out, o1, o2, N, hN⟩ := demoLoop_text (A := cli.alg) (n := cli.maxD) (mem := h'.mem) (root := d.root) hq rest hrest
    fun q hqs => let ⟨rs, g, _⟩ := hex q hqs; ⟨rs, g⟩
  have haddr : ∀ a, Reaches h'.mem d.root a → a < 2 ^ 64 := by
    intro a hra
    obtain ⟨t, x, hw, rfl⟩ := (hr.reaches hd a).1 hra
    have hx : x ∈ msg.nodeIds := Classical.byContradiction fun hn => hd ⟨t, x, hw, .inl hn⟩
    obtain ⟨k, _, k2, hk⟩ := hr.range x hx
    have := fromProto_count hok
    rw [hk]
    exact h64 k (by omega)
  obtain ⟨r, ⟨M, hM⟩, hs⟩ := hr.saved hd haddr (decode_fits hdec).size
  have hM' : ∀ fuel, M ≤ fuel → serializeStream sgn h'.mem fuel d.root d.size = .ok r := hM
  by_cases hw : fs.writable cli.ser = true
  · refine ⟨out, r.getD [], { fs with read := fun p => if p = cli.ser then some (r.getD []) else fs.read p }, r.isSome,
      ⟨N, fun fuel hf => hN fuel fuel hf hf []⟩, ⟨o1, fun x hx => ?_⟩, ⟨M, fun fuel hf => ?_⟩, hs, by rw [if_pos hw], rfl⟩
    · obtain ⟨rs, g1, g2, g3⟩ := hex x.1 (by rw [← o1]; exact List.mem_map.2 ⟨x, hx, rfl⟩)
      rw [(o2 x hx).unique g1]
      exact ⟨g2, g3⟩
    · simp only [serializeFile, hM' fuel hf, bind, Except.bind, if_pos hw]
  · refine ⟨out, r.getD [], fs, false,
      ⟨N, fun fuel hf => hN fuel fuel hf hf []⟩, ⟨o1, fun x hx => ?_⟩, ⟨M, fun fuel hf => ?_⟩, hs, by rw [if_neg hw], rfl⟩
    · obtain ⟨rs, g1, g2, g3⟩ := hex x.1 (by rw [← o1]; exact List.mem_map.2 ⟨x, hx, rfl⟩)
      rw [(o2 x hx).unique g1]
      exact ⟨g2, g3⟩
    · simp only [serializeFile, hM' fuel hf, bind, Except.bind, if_neg hw]

/-- C82, cycles: if no node is missing but there is a cycle, the program gives the right answers and writes the file, then
deletes for ever. -/
theorem c82_cycle (ha : Allocator addr h) (h64 : ∀ k, k < h.count + msg.nodeIds.length → addr k < 2 ^ 64)
    (hopts : parseOpts (fun p => (fs.read p).isSome) argv = .ok (cli, true)) (hser : fs.read cli.ser = some bytes)
    (hdec : decodeMsg bytes = some msg) (hin : Asks stdin qs false) (hL : ∀ q ∈ qs, QueryFits cli.maxD q ∧ q.length + cli.maxD + 2 ≤ 2 ^ 62)
    (hu : ¬ Unreadable msg) (hd : ¬ Dangling msg) (hc : Cyclic msg) :
    (∀ fuel, ∃ e, demoMain sgn addr fuel argv stdin fs h = .error e) ∧
    (∃ N, ∀ fuel, N ≤ fuel → demoMain sgn addr fuel argv stdin fs h = .error .diverge) ∧
    ∃ h' d out bs fs' ok, Ends (fun fuel => demoDawg sgn addr fuel fs cli h) (h', some d) ∧
      Ends (fun fuel => demoLoop cli.alg cli.maxD h'.mem d.root fuel fuel (.open stdin) []) out ∧
      Answers sgn cli.alg cli.maxD msg qs out ∧
      Ends (fun fuel => serializeFile sgn h'.mem fuel d.root d.size fs cli.ser) (fs', ok) ∧ Saved msg bs ∧
      fs'.read = (if fs.writable cli.ser then fun p => if p = cli.ser then some bs else fs.read p else fs.read) ∧
      fs'.writable = fs.writable ∧
      ∀ fuel, destroyDawg fuel h' d = .error .diverge := by
  obtain ⟨h', d, hok, _⟩ := (c75_read sgn ha msg).2 hu
  have e1 := fun fuel => demoDawg_file (cli := cli) hser hdec hok fuel
  have hdel := (c75_delete ha hok).2.1 hd hc
  obtain ⟨out, bs, fs', ok, ⟨N, hN⟩, g2, ⟨M, hM⟩, g4, g5, g6⟩ :=
    demo_before_delete (cli := cli) ha h64 hdec hin hL hd hok fs
  refine ⟨fun fuel => ?_, ⟨max N M, fun fuel hf => ?_⟩,
    h', d, out, bs, fs', ok, ⟨0, fun fuel _ => e1 fuel⟩, ⟨N, hN⟩, g2, ⟨M, hM⟩, g4, g5, g6, hdel⟩
  · simp only [demoMain, hopts, bind, Except.bind, e1 fuel, Bool.not_true, Bool.false_eq_true, if_false]
    split
    · exact ⟨_, rfl⟩
    · split
      · exact ⟨_, rfl⟩
      · rw [hdel fuel]; exact ⟨_, rfl⟩
  · have e2 : demoLoop cli.alg cli.maxD h'.mem d.root fuel fuel (.open stdin) [] = .ok out := hN fuel (by omega)
    have e3 : serializeFile sgn h'.mem fuel d.root d.size fs cli.ser = .ok (fs', ok) := hM fuel (by omega)
    simp [demoMain, hopts, bind, Except.bind, e1 fuel, e2, e3, hdel fuel]

/-- C82, the rest: no missing node and no cycle can be reached, and the input ends.  Then the program ends with code 0,
gives the right answers, replaces the file by a tidy one (or an empty one, if that is too large), and gives all memory back
exactly if every node of the message that is there can be reached. -/
theorem c82_ends (ha : Allocator addr h) (h64 : ∀ k, k < h.count + msg.nodeIds.length → addr k < 2 ^ 64)
    (hopts : parseOpts (fun p => (fs.read p).isSome) argv = .ok (cli, true)) (hser : fs.read cli.ser = some bytes)
    (hdec : decodeMsg bytes = some msg) (hin : Asks stdin qs false) (hL : ∀ q ∈ qs, QueryFits cli.maxD q ∧ q.length + cli.maxD + 2 ≤ 2 ^ 62)
    (hu : ¬ Unreadable msg) (hd : ¬ Dangling msg) (hc : ¬ Cyclic msg) :
    ∃ run bs, Ends (fun fuel => demoMain sgn addr fuel argv stdin fs h) run ∧ run.code = 0 ∧
      Answers sgn cli.alg cli.maxD msg qs run.out ∧ Saved msg bs ∧
      run.files.read = (if fs.writable cli.ser then fun p => if p = cli.ser then some bs else fs.read p else fs.read) ∧
      run.files.writable = fs.writable ∧ (∀ a, h.mem a ≠ none → run.heap.mem a = h.mem a) ∧
      ((∀ a, run.heap.mem a = h.mem a) ↔ ∀ x, ¬ Missing msg x → ∃ t, Walk msg msg.rootId t x) := by
  obtain ⟨h', d, hok, _⟩ := (c75_read sgn ha msg).2 hu
  have e1 := fun fuel => demoDawg_file (cli := cli) hser hdec hok fuel
  obtain ⟨h'', ⟨K, hK⟩, k1, k2⟩ := (c75_delete ha hok).2.2 hd hc
  obtain ⟨out, bs, fs', ok, ⟨N, hN⟩, g2, ⟨M, hM⟩, g4, g5, g6⟩ :=
    demo_before_delete (cli := cli) ha h64 hdec hin hL hd hok fs
  refine ⟨⟨0, out, fs', h''⟩, bs, ⟨max (max N M) K, fun fuel hf => ?_⟩, rfl, g2, g4, g5, g6, k1, k2⟩
  have e2 : demoLoop cli.alg cli.maxD h'.mem d.root fuel fuel (.open stdin) [] = .ok out := hN fuel (by omega)
  have e3 : serializeFile sgn h'.mem fuel d.root d.size fs cli.ser = .ok (fs', ok) := hM fuel (by omega)
  have e4 : destroyDawg fuel h' d = .ok h'' := hK fuel (by omega)
  simp [demoMain, hopts, bind, Except.bind, e1 fuel, e2, e3, e4]

/-- C82, exactly: whatever message the file holds and whatever the input is, the outcome of the program is determined.  It
ends exactly if the message is readable, no missing node and no cycle can be reached, and the input ends. -/
theorem c82_exactly (ha : Allocator addr h) (h64 : ∀ k, k < h.count + msg.nodeIds.length → addr k < 2 ^ 64)
    (hopts : parseOpts (fun p => (fs.read p).isSome) argv = .ok (cli, true)) (hser : fs.read cli.ser = some bytes)
    (hdec : decodeMsg bytes = some msg) (hin : Asks stdin qs stuck) (hL : ∀ q ∈ qs, QueryFits cli.maxD q ∧ q.length + cli.maxD + 2 ≤ 2 ^ 62) :
    ((∃ N, ∀ fuel, N ≤ fuel → demoMain sgn addr fuel argv stdin fs h = .error .ub) ↔
      Unreadable msg ∨ (∃ q ∈ qs, Falls cli.alg cli.maxD msg q) ∨ (stuck = false ∧ Dangling msg)) ∧
    ((∃ N, ∀ fuel, N ≤ fuel → demoMain sgn addr fuel argv stdin fs h = .error .diverge) ↔
      ¬ Unreadable msg ∧ (∀ q ∈ qs, ¬ Falls cli.alg cli.maxD msg q) ∧ (stuck = true ∨ (¬ Dangling msg ∧ Cyclic msg))) ∧
    ((∃ run, Ends (fun fuel => demoMain sgn addr fuel argv stdin fs h) run) ↔
      ¬ Unreadable msg ∧ stuck = false ∧ ¬ Dangling msg ∧ ¬ Cyclic msg) := by
  have hfd : ∀ q, Falls cli.alg cli.maxD msg q → Dangling msg := fun q ⟨w, y, _, hw, hm⟩ => ⟨w, y, hw, hm⟩
  have c1 := c82_undefined (sgn := sgn) (qs := qs) (stuck := stuck) ha hopts hser hdec hin hL
  have c2 : ¬ Unreadable msg ∧ (∀ q ∈ qs, ¬ Falls cli.alg cli.maxD msg q) ∧ (stuck = true ∨ (¬ Dangling msg ∧ Cyclic msg)) →
      ∃ N, ∀ fuel, N ≤ fuel → demoMain sgn addr fuel argv stdin fs h = .error .diverge := by
    rintro ⟨hu, hf, hs⟩
    cases stuck with
    | true => exact c82_stuck ha hopts hser hdec hin hL hu hf
    | false =>
      obtain ⟨hd, hc⟩ := hs.resolve_left (by simp)
      exact (c82_cycle ha h64 hopts hser hdec hin hL hu hd hc).2.1
  have c3 : ¬ Unreadable msg ∧ stuck = false ∧ ¬ Dangling msg ∧ ¬ Cyclic msg →
      ∃ run, Ends (fun fuel => demoMain sgn addr fuel argv stdin fs h) run := by
    rintro ⟨hu, rfl, hd, hc⟩
    obtain ⟨run, _, g, _⟩ := c82_ends (sgn := sgn) ha h64 hopts hser hdec hin hL hu hd hc
    exact ⟨run, g⟩
  have x12 : (∃ N, ∀ fuel, N ≤ fuel → demoMain sgn addr fuel argv stdin fs h = .error .ub) →
      ¬ ∃ N, ∀ fuel, N ≤ fuel → demoMain sgn addr fuel argv stdin fs h = .error .diverge := by
    rintro ⟨N, hN⟩ ⟨M, hM⟩
    have := hN (max N M) (by omega)
    rw [hM (max N M) (by omega)] at this
    cases this
  have x13 : ∀ e, (∃ N, ∀ fuel, N ≤ fuel → demoMain sgn addr fuel argv stdin fs h = .error e) →
      ¬ ∃ run, Ends (fun fuel => demoMain sgn addr fuel argv stdin fs h) run := by
    rintro e ⟨N, hN⟩ ⟨run, M, hM⟩
    have := hN (max N M) (by omega)
    rw [show demoMain sgn addr (max N M) argv stdin fs h = .ok run from hM (max N M) (by omega)] at this
    cases this
  have hcases : (Unreadable msg ∨ (∃ q ∈ qs, Falls cli.alg cli.maxD msg q) ∨ (stuck = false ∧ Dangling msg)) ∨
      (¬ Unreadable msg ∧ (∀ q ∈ qs, ¬ Falls cli.alg cli.maxD msg q) ∧ (stuck = true ∨ (¬ Dangling msg ∧ Cyclic msg))) ∨
      (¬ Unreadable msg ∧ stuck = false ∧ ¬ Dangling msg ∧ ¬ Cyclic msg) := by
    by_cases h1 : Unreadable msg
    · exact .inl (.inl h1)
    · by_cases h2 : ∃ q ∈ qs, Falls cli.alg cli.maxD msg q
      · exact .inl (.inr (.inl h2))
      · have h2' : ∀ q ∈ qs, ¬ Falls cli.alg cli.maxD msg q := fun q hq hf => h2 ⟨q, hq, hf⟩
        cases stuck with
        | true => exact .inr (.inl ⟨h1, h2', .inl rfl⟩)
        | false =>
          by_cases h3 : Dangling msg
          · exact .inl (.inr (.inr ⟨rfl, h3⟩))
          · by_cases h4 : Cyclic msg
            · exact .inr (.inl ⟨h1, h2', .inr ⟨h3, h4⟩⟩)
            · exact .inr (.inr ⟨h1, rfl, h3, h4⟩)
  refine ⟨⟨fun hx => ?_, c1⟩, ⟨fun hx => ?_, c2⟩, ⟨fun hx => ?_, c3⟩⟩
  · rcases hcases with k | k | k
    · exact k
    · exact absurd (c2 k) (x12 hx)
    · exact absurd (c3 k) (x13 _ hx)
  · rcases hcases with k | k | k
    · exact absurd hx (x12 (c1 k))
    · exact k
    · exact absurd (c3 k) (x13 _ hx)
  · rcases hcases with k | k | k
    · exact absurd hx (x13 _ (c1 k))
    · exact absurd hx (x13 _ (c2 k))
    · exact k

/-- C82: after one run that ends, the file is in order (if it could be written and was not too large): the next run, on any
machine, with any input that ends, ends too and gives the answers of the old message. -/
theorem c82_next_run (ha : Allocator addr h) (h64 : ∀ k, k < h.count + msg.nodeIds.length → addr k < 2 ^ 64)
    (hopts : parseOpts (fun p => (fs.read p).isSome) argv = .ok (cli, true)) (hser : fs.read cli.ser = some bytes)
    (hdec : decodeMsg bytes = some msg) (hin : Asks stdin qs false) (hL : ∀ q ∈ qs, QueryFits cli.maxD q ∧ q.length + cli.maxD + 2 ≤ 2 ^ 62)
    (hw : fs.writable cli.ser = true) (hsz : 20 * msg.nodeIds.length + 35 * msg.edges.length + 44 ≤ 2 ^ 31 - 1)
    {run : DemoRun} (hrun : Ends (fun fuel => demoMain sgn addr fuel argv stdin fs h) run) :
    ∃ bs msg', run.files.read cli.ser = some bs ∧ decodeMsg bs = some msg' ∧ Tidied msg bs ∧
      ∀ (sgn' : Bool) (addr' : Nat → Nat) (h' : Heap) (fs' : Files) (argv' : List Str) (cli' : Cli) (stdin' : List UInt8)
        (qs' : List Str), Allocator addr' h' → (∀ k, k < h'.count + msg'.nodeIds.length → addr' k < 2 ^ 64) →
        parseOpts (fun p => (fs'.read p).isSome) argv' = .ok (cli', true) → fs'.read cli'.ser = some bs →
        Asks stdin' qs' false → (∀ q ∈ qs', QueryFits cli'.maxD q ∧ q.length + cli'.maxD + 2 ≤ 2 ^ 62) →
        ∃ run', Ends (fun fuel => demoMain sgn' addr' fuel argv' stdin' fs' h') run' ∧ run'.code = 0 ∧
          Answers sgn' cli'.alg cli'.maxD msg qs' run'.out ∧ ∀ a, run'.heap.mem a = h'.mem a := by
  obtain ⟨hu, _, hd, hc⟩ := (c82_exactly ha h64 hopts hser hdec hin hL).2.2.1 ⟨run, hrun⟩
  obtain ⟨run2, bs, g1, _, _, g4, g5, _⟩ := c82_ends (sgn := sgn) ha h64 hopts hser hdec hin hL hu hd hc
  obtain rfl : run = run2 := hrun.unique g1
  have ht : Tidied msg bs := g4.resolve_right fun ⟨_, hbig⟩ => by omega
  obtain ⟨msg', t1, t2, t3, t4, t5, t6⟩ := ht
  refine ⟨bs, msg', by rw [g5, if_pos hw]; simp, t1, ⟨msg', t1, t2, t3, t4, t5, t6⟩, ?_⟩
  intro sgn' addr' h' fs' argv' cli' stdin' qs' ha' h64' hopts' hser' hin' hL'
  have ha0 : Allocator (fun k => k + 1) ⟨fun _ => none, 0⟩ := ⟨by simp, by simp, rfl, fun _ _ => rfl⟩
  obtain ⟨g', d', ψ, r1, r2⟩ := wellFormed_from (sgn := sgn) ha0 t2
  have hu' : ¬ Unreadable msg' := fun hx => by
    rw [(c75_read sgn ha0 msg').1.2 hx] at r1; cases r1
  have hdel : ∀ x, ¬ Deletes msg' msg'.edges x := by
    rintro x ⟨l1, e, l2, k1, f, k2, k3, _⟩
    have hk := t2.keys
    rw [k1, List.pairwise_append] at hk
    rcases hk.2.2 f k2.mem e (by simp) with hk | hk
    · exact hk k3.1
    · exact hk k3.2
  have hlist : ∀ x t y, Walk msg' x t y → x ∈ msg'.nodeIds → y ∈ msg'.nodeIds := by
    intro x t y hxy
    induction hxy with
    | here => exact id
    | step he _ _ ih => exact fun _ => ih (t2.target _ he.mem)
  have hd' : ¬ Dangling msg' := by
    rintro ⟨t, x, hw, hm | hm⟩
    · exact hm (hlist _ _ _ hw t2.root)
    · exact hdel x hm
  obtain ⟨run', bs', s1, s2, s3, _, _, _, _, s4⟩ := c82_ends (sgn := sgn') ha' h64' hopts' hser' t1 hin' hL' hu' hd'
    (fun hx => hc (t6.1 hx))
  refine ⟨run', s1, s2, ⟨s3.1, fun x hx => ⟨fun t e => ?_, (s3.2 x hx).2⟩⟩, s4.2 fun x hx => ?_⟩
  · rw [(s3.2 x hx).1, t5]
  · have hxl : x ∈ msg'.nodeIds := Classical.byContradiction fun hn => hx (.inl hn)
    have hwalk : ∀ x y, MsgReaches msg' x y → ∃ t, Walk msg' x t y := by
      intro x y hxy
      induction hxy with
      | refl => exact ⟨[], .here⟩
      | @step e y he _ ih =>
        obtain ⟨t, ht⟩ := ih
        refine ⟨charOfLabel e.label :: t, .step ?_ ?_ ht⟩
        · obtain ⟨l1, l2, k1⟩ := List.append_of_mem he
          refine ⟨l1, l2, k1, fun g hg hs => ?_⟩
          have hk := t2.keys
          rw [k1, List.pairwise_append, List.pairwise_cons] at hk
          rcases hk.2.1.1 g hg with hk | hk
          · exact hk hs.1.symm
          · exact hk hs.2.symm
        · simp [charOfLabel]
    exact hwalk _ _ (t3 x hxl)

end

/-! ### Cases -/

/-- The serialization file `s` with the bytes `bs`, and nothing else. -/
def exAlien (bs : List UInt8) : Files := { read := fun p => if p = [115] then some bs else none, writable := fun _ => true }

/-- The program called as `demo --serialization-path s --standard --max-distance 1`. -/
def exAlienArgv : List Str :=
  [lit "demo", lit "--serialization-path", [115], lit "--standard", lit "--max-distance", lit "1"]

/-- The options that gives. -/
def exAlienCli : Cli :=
  { code := 0, dict := lit "../resources/programming-languages.txt", ser := [115], alg := .standard, maxD := 1 }

/-- What a run prints, leaves in the file, and leaves behind in memory. -/
def exAlienRun (bs stdin : List UInt8) : Except Err (Nat × List (Str × List (Str × Nat)) × Option (List UInt8) × Nat) :=
  (demoMain true (fun k => k + 1) 200 exAlienArgv stdin (exAlien bs) exHeap).map
    fun r => (r.code, r.out, r.files.read [115], ((List.range 20).filter fun a => (r.heap.mem a).isSome).length)

-- `exReplaced`: the query "b", then an empty line; the file is tidied
example : decodeMsg [10, 3, 7, 9, 4, 18, 2, 9, 4, 26, 6, 8, 7, 16, 97, 24, 9, 26, 7, 8, 7, 16, 225, 2, 24, 4, 32, 7, 40, 1] =
    some exReplaced := by decide +kernel

set_option synthInstance.maxSize 1000 in
example : exAlienRun [10, 3, 7, 9, 4, 18, 2, 9, 4, 26, 6, 8, 7, 16, 97, 24, 9, 26, 7, 8, 7, 16, 225, 2, 24, 4, 32, 7, 40, 1]
    [98, 10, 10] = .ok (0, [([98], [([97], 1)])],
      some [10, 2, 1, 3, 18, 1, 3, 26, 6, 8, 1, 16, 97, 24, 3, 32, 1, 40, 1], 0) := by decide +kernel

-- the same with one more node that can not be reached: it stays in memory
set_option synthInstance.maxSize 1000 in
example : exAlienRun [10, 4, 7, 9, 4, 1, 18, 2, 9, 4, 26, 6, 8, 7, 16, 97, 24, 9, 26, 7, 8, 7, 16, 225, 2, 24, 4, 32, 7, 40, 1]
    [98, 10, 10] = .ok (0, [([98], [([97], 1)])],
      some [10, 2, 1, 3, 18, 1, 3, 26, 6, 8, 1, 16, 97, 24, 3, 32, 1, 40, 1], 1) := by decide +kernel

-- all hypotheses at once
example : ∃ run, Ends (fun fuel => demoMain true (fun k => k + 1) fuel exAlienArgv [98, 10, 10] (exAlien
    [10, 3, 7, 9, 4, 18, 2, 9, 4, 26, 6, 8, 7, 16, 97, 24, 9, 26, 7, 8, 7, 16, 225, 2, 24, 4, 32, 7, 40, 1]) exHeap) run :=
  (c82_exactly (sgn := true) (msg := exReplaced)
    (bytes := [10, 3, 7, 9, 4, 18, 2, 9, 4, 26, 6, 8, 7, 16, 97, 24, 9, 26, 7, 8, 7, 16, 225, 2, 24, 4, 32, 7, 40, 1])
    (cli := exAlienCli) (qs := [[98]]) (stuck := false) exAllocator
    (fun k hk => by simp only [exHeap, exReplaced, List.length_cons, List.length_nil] at hk ⊢; omega)
    (by decide +kernel) (by rfl) (by decide +kernel)
    ⟨by simp [NoNewline], .inl ⟨rfl, [10], by simp [textOf], .inl ⟨[], rfl⟩⟩⟩ (by decide)).2.2.2
    ⟨exReplaced_fine.1, rfl, exReplaced_fine.2.1, exReplaced_fine.2.2.1⟩

theorem exLoop_last {e : MsgEdge} (he : LastEdge exLoop.edges e) : e = ⟨5, 97, 5⟩ := by
  have := he.mem
  simpa [exLoop] using this

theorem exLoop_replaces {l1 l2 : List MsgEdge} {e : MsgEdge} {x : Nat} (h1 : exLoop.edges = l1 ++ e :: l2) :
    ¬ Replaces exLoop l1 e x := by
  rintro ⟨f, hf, _⟩
  have := hf.mem
  match l1, h1 with
  | [], _ => simp at this
  | a :: l, h1 => simp [exLoop] at h1

/-- The message with a cycle: readable, nothing missing. -/
theorem exLoop_fine : ¬ Unreadable exLoop ∧ ¬ Dangling exLoop ∧ Cyclic exLoop := by
  have hdel : ∀ {l1 l2 x}, exLoop.edges = l1 ++ l2 → ¬ Deletes exLoop l1 x := by
    rintro l1 l2 x h ⟨m1, e, m2, rfl, hr⟩
    exact exLoop_replaces (l2 := m2 ++ l2) (by rw [h]; simp) hr
  have hwalk : ∀ {x t y}, Walk exLoop x t y → x = 5 → y = 5 := by
    intro x t y hw
    induction hw with
    | here => exact id
    | step he _ _ ih => intro _; exact ih (by rw [exLoop_last he])
  refine ⟨?_, ?_, ?_⟩
  · rintro ⟨l1, e, l2, h1, h2⟩
    have he : e = ⟨5, 97, 5⟩ := by
      have : e ∈ exLoop.edges := by rw [h1]; simp
      simpa [exLoop] using this
    rcases h2 with h2 | h2 | ⟨x, h2, _⟩
    · rw [he] at h2; simp [exLoop] at h2
    · exact hdel (l2 := l2) (by rw [h1]; simp) h2
    · exact exLoop_replaces h1 h2
  · rintro ⟨t, x, hw, hm | hm⟩
    · rw [hwalk hw rfl] at hm; simp [exLoop] at hm
    · exact hdel (l2 := []) (by simp) hm
  · exact ⟨[], [97], 5, .here, .step (e := ⟨5, 97, 5⟩) ⟨[], [], rfl, by simp⟩ (by decide) .here, by simp⟩

-- a cycle: the program does not end, though the input does
example : decodeMsg [10, 1, 5, 18, 1, 5, 26, 6, 8, 5, 16, 97, 24, 5, 32, 5, 40, 1] = some exLoop := by decide +kernel

set_option synthInstance.maxSize 1000 in
example : exAlienRun [10, 1, 5, 18, 1, 5, 26, 6, 8, 5, 16, 97, 24, 5, 32, 5, 40, 1] [97, 10] = .error .diverge := by
  decide +kernel

/-- A missing node behind `zz`. -/
def exGap : Msg := { nodeIds := [7, 3], finalIds := [3], edges := [⟨7, 122, 3⟩, ⟨3, 122, 9⟩], rootId := 7, size := 1 }

theorem exGap_walk {x y : Nat} {t : Str} (hw : Walk exGap x t y) : x = 7 → Missing exGap y → t = [122, 122] := by
  have hdel : ∀ {z}, ¬ Deletes exGap exGap.edges z := by
    rintro z ⟨m1, e, m2, h, f, hf, hs, _⟩
    have hm := hf.mem
    match m1, h with
    | [], _ => simp at hm
    | [a], h =>
      simp only [exGap, List.cons_append, List.nil_append, List.cons.injEq] at h
      obtain ⟨rfl, rfl, _⟩ := h
      rw [List.mem_singleton.1 hm] at hs
      exact absurd hs.1 (by decide)
    | a :: b :: l, h => simp [exGap] at h
  have hstep : ∀ {e : MsgEdge}, LastEdge exGap.edges e → e = ⟨7, 122, 3⟩ ∨ e = ⟨3, 122, 9⟩ := fun he => by
    have := he.mem
    simpa [exGap] using this
  intro hx hm
  have hy : y ≠ 7 ∧ y ≠ 3 := by
    rcases hm with hm | hm
    · simpa [exGap] using hm
    · exact absurd hm hdel
  match t with
  | [] => cases hw; exact absurd hx hy.1
  | c :: t =>
    obtain ⟨e, he, h1, h2, h3⟩ := walk_cons_iff.1 hw
    rcases hstep he with rfl | rfl
    · match t with
      | [] => generalize hz : (MsgEdge.mk 7 122 3).target = z at h3; cases h3; exact absurd hz.symm hy.2
      | c' :: t =>
        obtain ⟨f, hf, h4, h5, h6⟩ := walk_cons_iff.1 h3
        rcases hstep hf with rfl | rfl
        · simp at h4
        · match t with
          | [] => rw [← h2, ← h5]; decide
          | c'' :: t =>
            obtain ⟨g, hg, h7, _⟩ := walk_cons_iff.1 h6
            rcases hstep hg with rfl | rfl <;> simp at h7
    · simp only at h1; omega

-- near "a" the missing node is out of reach, so that the unterminated query is answered for ever; with a newline the program
-- would be undefined, because the file is written at the end
example : ¬ Falls .standard 1 exGap [97] := by
  rintro ⟨w, y, ⟨u, c, hc, hal⟩, hw, hm⟩
  rw [exGap_walk hw rfl hm] at hal
  have := foreign_cost hal (x := 122) (by decide)
  simp only [List.cons_append, List.nil_append, List.count_cons_self] at this
  omega

example : Falls .standard 1 exGap [122] :=
  ⟨[122, 122], 9, ⟨[], 1, by omega, .keep 122 (.ins 122 .nil)⟩,
    .step (e := ⟨7, 122, 3⟩) ⟨[], [⟨3, 122, 9⟩], rfl, by simp [SameSlot]⟩ (by decide)
      (.step (e := ⟨3, 122, 9⟩) ⟨[⟨7, 122, 3⟩], [], rfl, by simp⟩ (by decide) .here), .inl (by decide)⟩

example : decodeMsg [10, 2, 7, 3, 18, 1, 3, 26, 6, 8, 7, 16, 122, 24, 3, 26, 6, 8, 3, 16, 122, 24, 9, 32, 7, 40, 1] =
    some exGap := by decide +kernel

set_option synthInstance.maxSize 1000 in
example : exAlienRun [10, 2, 7, 3, 18, 1, 3, 26, 6, 8, 7, 16, 122, 24, 3, 26, 6, 8, 3, 16, 122, 24, 9, 32, 7, 40, 1] [97] =
    .error .diverge := by decide +kernel

set_option synthInstance.maxSize 1000 in
example : exAlienRun [10, 2, 7, 3, 18, 1, 3, 26, 6, 8, 7, 16, 122, 24, 3, 26, 6, 8, 3, 16, 122, 24, 9, 32, 7, 40, 1]
    [97, 10] = .error .ub := by decide +kernel

set_option synthInstance.maxSize 1000 in
example : exAlienRun [10, 2, 7, 3, 18, 1, 3, 26, 6, 8, 7, 16, 122, 24, 3, 26, 6, 8, 3, 16, 122, 24, 9, 32, 7, 40, 1]
    [122] = .error .ub := by decide +kernel

end Lev.Props
