import Verif.Proofs.BuildCost
import Verif.Proofs.CodeClash
import Verif.Proofs.WordNodes
import Verif.Props.DeleteCost

/-!
# C83, C84: how long hashing, comparing and building take

`std::hash<DawgNode>` and `DawgNode::operator==` go through everything that can be read from a node, and a node that can be
reached in several ways is gone through each time.  The map that finds the equal nodes during the construction needs both
for every node, and the hash code of a node uses one byte only of the hash code of each of its children.
-/

namespace Lev.Props

open Spec

/-- `Readable` in terms of the unfolding. -/
theorem readable_size {sgn : Bool} {mem : Mem} {k a n : Nat} {x : DNode} {F : Forest} (hd : DictNode sgn mem k a)
    (hm : mem a = some x) (hu : Unf mem x.edges F) (hn : Readable mem a n) : n = 1 + F.size := by
  obtain ⟨ws, h1, h2, rfl⟩ := hn
  rw [DictNode.count_paths hd hm hu h1 h2]; omega

theorem dict_unf {sgn : Bool} {mem : Mem} {k a : Nat} {x : DNode} (hd : DictNode sgn mem k a) (hm : mem a = some x) :
    ∃ F, Unf mem x.edges F ∧ F.Sorted sgn := by
  obtain ⟨nd, F, h1, h2, _⟩ := DictNode.unf hd
  rw [hm] at h1
  obtain rfl := Option.some.inj h1
  exact ⟨F, h2, DictNode.sorted hd hm h2⟩

/-! ### C83 -/

/-- C83, the hash code of a node: one evaluation of the hash function for each string that can be read from the node. -/
theorem c83_hash {sgn : Bool} {mem : Mem} {k a n : Nat} {x : DNode} (hd : DictNode sgn mem k a) (hm : mem a = some x)
    (hn : Readable mem a n) :
    ∃ code, Ends (fun fuel => nodeHash mem fuel x) code ∧ Ends (fun fuel => nodeHashN mem fuel x) (code, n) := by
  obtain ⟨F, hu, _⟩ := dict_unf hd hm
  have he : Ends (fun fuel => nodeHashN mem fuel x) (treeHash x.final F, n) :=
    ⟨F.height + 1, fun fuel hf => by rw [readable_size hd hm hu hn]; exact nodeHashN_spec hu (by omega)⟩
  exact ⟨_, Ends.erase (fun fuel => nodeHashN_erase mem fuel x) he, he⟩

/-- C83, the comparison of two nodes: it takes at least one and at most as many evaluations as there are strings that can be
read from either of them, and that many if the nodes are equal. -/
theorem c83_eq {sgn : Bool} {mem : Mem} (h0 : mem 0 = none) {k a n k' a' n' : Nat} {x y : DNode}
    (hd : DictNode sgn mem k a) (hm : mem a = some x) (hn : Readable mem a n)
    (hd' : DictNode sgn mem k' a') (hm' : mem a' = some y) (hn' : Readable mem a' n') :
    ∃ r m, Ends (fun fuel => nodeEq mem fuel x y) r ∧ Ends (fun fuel => nodeEqN mem fuel x y) (r, m) ∧
      1 ≤ m ∧ m ≤ n ∧ m ≤ n' ∧ (r = true → m = n ∧ m = n') := by
  obtain ⟨F, hu, hs⟩ := dict_unf hd hm
  obtain ⟨G, hu', hs'⟩ := dict_unf hd' hm'
  have e1 := readable_size hd hm hu hn
  have e2 := readable_size hd' hm' hu' hn'
  obtain ⟨m, h1, h2, h3, h4, h5⟩ := nodeEqN_spec h0 hu hu' hs hs'
  have he : Ends (fun fuel => nodeEqN mem fuel x y) (decide (x.final = y.final ∧ F = G), m) :=
    ⟨F.height + 1, fun fuel hf => h1 fuel (by omega)⟩
  refine ⟨_, m, Ends.erase (fun fuel => nodeEqN_erase mem fuel x y) he, he, h2, by omega, by omega, fun hr => ?_⟩
  have hr' := of_decide_eq_true hr
  have := h5 hr'
  rw [hr'.2] at this e1
  omega

/-- C83, a dictionary built from terms: its hash code takes one evaluation for each different beginning of a term. -/
theorem c83_built {sgn : Bool} {addr : Nat → Nat} {h h' : Heap} {terms : List Str} {d : SDawg} (ha : Allocator addr h)
    (hr : Ends (fun fuel => sortedDawg sgn addr fuel terms h) (h', some d)) {ws : List Str} (hnd : ws.Nodup)
    (hws : ∀ w, w ∈ ws ↔ w = [] ∨ ∃ t ∈ terms, w <+: t) :
    ∃ x code, h'.mem d.root = some x ∧ Ends (fun fuel => nodeHashN h'.mem fuel x) (code, ws.length) := by
  obtain ⟨_, hf⟩ := finished_of_run ha hr
  obtain ⟨nd, F, hm, _, _, _, hd⟩ := hf.dict
  obtain ⟨code, _, h2⟩ := c83_hash hd hm ⟨ws, hnd, fun w => by rw [hws, hf.leads_iff], rfl⟩
  exact ⟨nd, code, hm, h2⟩

/-- C83, files: for every `n` up to ten million there is a file of at most 80 n + 64 bytes, holding a dictionary of n + 1
nodes without any fault, whose hash code, and whose comparison with itself, takes exactly 2^(n+1) - 1 evaluations. -/
theorem c83_exponential (sgn : Bool) {addr : Nat → Nat} {h : Heap} (ha : Allocator addr h) {n : Nat} (hn : n ≤ 10000000) :
    ∃ bs msg h' d x code, bs.length ≤ 80 * n + 64 ∧ decodeMsg bs = some msg ∧ msg.nodeIds.length = n + 1 ∧
      deserializeStream sgn addr bs h = .ok (h', some d) ∧ DictNode sgn h'.mem (n + 1) d.root ∧
      h'.mem d.root = some x ∧ Ends (fun fuel => nodeHashN h'.mem fuel x) (code, 2 ^ (n + 1) - 1) ∧
      Ends (fun fuel => nodeEqN h'.mem fuel x x) (true, 2 ^ (n + 1) - 1) := by
  obtain ⟨h1, h2, h3⟩ := ladder_fine n
  obtain ⟨h', d, hok, _⟩ := (c75_read sgn ha (ladder n)).2 h1
  have hlen := shortWords_length n
  obtain ⟨φ, hr⟩ := readAny_of_ok ha hok
  have hdn := hr.dictNode h2 h3
  obtain ⟨hf, hl⟩ := ladder_fits hn
  have hdec := decode_encode hf (by unfold maxBytes; omega)
  have hR : Readable h'.mem d.root (2 ^ (n + 1) - 1) :=
    ⟨shortWords n, shortWords_nodup n, fun w => by rw [hr.leads h2]; exact ladder_walk w n 0 (by omega), by omega⟩
  obtain ⟨x, F, hm, hu, _⟩ := DictNode.unf hdn
  obtain ⟨code, _, hc⟩ := c83_hash hdn hm hR
  have hs : F.Sorted sgn := DictNode.sorted hdn hm hu
  obtain ⟨m, g1, _, _, _, g2⟩ := nodeEqN_spec hr.null hu hu hs hs
  have hsize := readable_size hdn hm hu hR
  refine ⟨encodeBytes (ladder n), ladder n, h', d, x, code, hl, hdec, by simp [ladder], ?_, by simpa [ladder] using hdn,
    hm, hc, ⟨F.height + 1, fun fuel hfu => ?_⟩⟩
  · simp [deserializeStream, hdec, hok, bind, Except.bind, pure, Except.pure]
  · rw [hsize, ← g2 ⟨rfl, rfl⟩]
    have := g1 fuel (by omega)
    simpa using this

/-! ### C84 -/

/-- What a run of `sorted_dawg` on sorted terms costs, in terms of the dictionary it makes. -/
theorem c84_work (sgn : Bool) {addr : Nat → Nat} {h : Heap} (ha : Allocator addr h) {terms : List Str}
    (hs : SortedTerms terms) :
    ∃ h' d w, Ends (fun fuel => sortedDawg sgn addr fuel terms h) (h', some d) ∧
      Ends (fun fuel => sortedDawgN sgn addr fuel terms h) ((h', some d), w) ∧
      (∀ (qs : List Str) (vs : List Nat) (sz : Nat → Nat), qs.Nodup →
        (∀ q, q ∈ qs ↔ q ≠ [] ∧ ∃ t ∈ terms, q <+: t) → vs.Nodup →
        (∀ v, v ∈ vs ↔ Reaches h'.mem d.root v ∧ v ≠ d.root) → (∀ v ∈ vs, Readable h'.mem v (sz v)) →
        w.hashes = (qs.map List.length).sum + (vs.map sz).sum ∧
        w.compares ≤ 2 * vs.length * (qs.map List.length).sum ∧ vs.length ≤ qs.length) ∧
      (∀ (L : List Nat) (code : Nat → UInt64), L.Nodup → (∀ v ∈ L, Reaches h'.mem d.root v ∧ v ≠ d.root) →
        (∀ v ∈ L, ∃ nd, h'.mem v = some nd ∧ Ends (fun fuel => nodeHash h'.mem fuel nd) (code v)) →
        2 * clashes (L.map code) ≤ w.compares) := by
  obtain ⟨h', d, w, F, reg, hend, hacc⟩ := sortedDawgN_spec (sgn := sgn) ⟨ha.nonnull, ha.inj⟩ ha.null ha.fresh
    ((asc_nil_iff terms).2 hs)
  have hrun : Ends (fun fuel => sortedDawg sgn addr fuel terms h) (h', some d) :=
    Ends.erase (fun fuel => sortedDawgN_erase sgn addr fuel terms h) hend
  obtain ⟨_, hf⟩ := finished_of_run ha hrun
  obtain ⟨nd, F', hm, hu, _, hsF, hd⟩ := hf.dict
  obtain ⟨nd', hm', hu'⟩ := hacc.tree
  rw [hm] at hm'
  obtain rfl := Option.some.inj hm'
  obtain rfl := hu.unique hu'
  have hdict : ∀ v, Reaches h'.mem d.root v → ∃ k, DictNode sgn h'.mem k v := fun v hv => by
    obtain ⟨u, hl⟩ := Spec.Leads.of_reaches hv
    exact hl.dictNode hd
  refine ⟨h', d, w, hrun, hend, ?_, ?_⟩
  · intro qs vs sz hq hqs hv hvs hsz
    have hpq : qs.Perm F'.paths := (List.perm_ext_iff_of_nodup hq (Forest.paths_nodup hsF)).2 fun q => by
      rw [hqs]
      have h1 := mem_paths_root hm hu q
      rw [hf.leads_iff, List.mem_cons] at h1
      constructor
      · rintro ⟨hne, ht⟩
        exact (h1.2 (.inr ht)).resolve_left hne
      · intro hp
        have hne := Forest.paths_ne hp
        exact ⟨hne, (h1.1 (.inr hp)).resolve_left hne⟩
    have hpv : vs.Perm (reg.map (·.val)) := (List.perm_ext_iff_of_nodup hv hacc.nodup).2 fun v => by
      rw [hvs, ← hacc.inReg, List.mem_map]
      rfl
    have hsum : (qs.map List.length).sum = F'.dsum := by
      rw [sum_perm (hpq.map _), Forest.dsum_paths]
    have hlen : vs.length = reg.length := by rw [hpv.length_eq, List.length_map]
    refine ⟨?_, ?_, ?_⟩
    · rw [hsum, sum_perm (hpv.map sz), List.map_map]
      refine hacc.hashes sz fun e he G hG => ?_
      have hev : e.val ∈ vs := hpv.mem_iff.2 (List.mem_map_of_mem he)
      obtain ⟨k, hk⟩ := hdict _ ((hvs _).1 hev).1
      exact readable_size hk (hacc.node e he).1 hG (hsz _ hev)
    · rw [hsum, hlen]; exact hacc.upper
    · rw [hlen, hpq.length_eq, Forest.paths_length]; exact hacc.len
  · intro L code hL hLr hcode
    have hsub : ∀ v ∈ L, v ∈ reg.map (·.val) := fun v hv => by
      have := (hacc.inReg v).2 (hLr v hv)
      rw [List.mem_map]; exact this
    -- the codes of the registered nodes, with the codes given for the nodes of the list
    have hreg : ∀ e ∈ reg, e.val ∈ L → code e.val = e.hash := fun e he heL => by
      obtain ⟨x, hx, hxe⟩ := hcode _ heL
      obtain ⟨g1, G, g2, g3⟩ := hacc.node e he
      rw [g1] at hx
      obtain rfl := Option.some.inj hx
      have : Ends (fun fuel => nodeHash h'.mem fuel e.key) (treeHash e.key.final G) :=
        ⟨G.height + 1, fun fuel hfu => nodeHash_spec g2 (by omega)⟩
      rw [hxe.unique this, g3]
    let code' : Nat → UInt64 := fun v => ((reg.find? fun e => e.val == v).map (·.hash)).getD 0
    have hcode' : ∀ e ∈ reg, code' e.val = e.hash := fun e he => by
      simp only [code']
      cases hfd : reg.find? fun e' => e'.val == e.val with
      | none => exact absurd (List.find?_eq_none.1 hfd e he) (by simp)
      | some e' =>
        have h1 := List.mem_of_find?_eq_some hfd
        have h2 : e'.val = e.val := by simpa using List.find?_some hfd
        obtain ⟨g1, G, g2, g3⟩ := hacc.node e he
        obtain ⟨g1', G', g2', g3'⟩ := hacc.node e' h1
        rw [h2, g1] at g1'
        have hk := Option.some.inj g1'
        rw [← hk] at g2' g3'
        rw [g2'.unique g2] at g3'
        simp [g3', g3]
    have e1 : L.map code = L.map code' := List.map_congr_left fun v hv => by
      obtain ⟨e, he, rfl⟩ := List.mem_map.1 (hsub v hv)
      rw [hreg e he hv, hcode' e he]
    have e2 : (reg.map (·.val)).map code' = reg.map (·.hash) := by
      rw [List.map_map]
      exact List.map_congr_left fun e he => hcode' e he
    have := (clashes_sub code' hL hsub).1
    rw [e1]
    rw [e2] at this
    exact Nat.le_trans (by omega) hacc.lower

/-- C84, the hash codes: a node's code uses one byte of the code of each child, so nodes of the same finality with the same
`k` labels have at most 256^k codes, and many of them must clash. -/
theorem c84_codes {sgn : Bool} {addr : Nat → Nat} {h h' : Heap} (ha : Allocator addr h) {terms : List Str} {d : SDawg}
    {w : Work} (hr : Ends (fun fuel => sortedDawgN sgn addr fuel terms h) ((h', some d), w)) (L : List Nat) (hL : L.Nodup)
    (b : Bool) (ls : List UInt8) (hLr : ∀ v ∈ L, Reaches h'.mem d.root v ∧ v ≠ d.root ∧
      ∃ nd, h'.mem v = some nd ∧ nd.final = b ∧ nd.edges.map (·.1) = ls) (m : Nat) :
    2 * (m * L.length) ≤ w.compares + 256 ^ ls.length * (m * (m + 1)) := by
  have hrun : Ends (fun fuel => sortedDawg sgn addr fuel terms h) (h', some d) :=
    Ends.erase (fun fuel => sortedDawgN_erase sgn addr fuel terms h) hr
  obtain ⟨hs, hf⟩ := finished_of_run ha hrun
  obtain ⟨h2, d2, w2, _, hend, _, hlow⟩ := c84_work sgn ha hs
  cases hr.unique hend
  obtain ⟨nd, F', hm, hu, _, hsF, hd⟩ := hf.dict
  have hcode : ∀ v, ∃ c, v ∈ L → (∃ nd, h'.mem v = some nd ∧ Ends (fun fuel => nodeHash h'.mem fuel nd) c) ∧
      c ∈ nodeCodes b ls := by
    intro v
    by_cases hv : v ∈ L
    · obtain ⟨g1, _, x, g2, g3, g4⟩ := hLr v hv
      obtain ⟨u, hl⟩ := Spec.Leads.of_reaches g1
      obtain ⟨k, hk⟩ := hl.dictNode hd
      obtain ⟨G, hG, _⟩ := dict_unf hk g2
      refine ⟨treeHash x.final G, fun _ => ⟨⟨x, g2, G.height + 1, fun fuel hfu => nodeHash_spec hG (by omega)⟩, ?_⟩⟩
      have := treeHash_mem x.final G
      rw [hG.labels, g4, g3] at this
      rw [g3]; exact this
    · exact ⟨0, fun h => absurd h hv⟩
  obtain ⟨code, hc⟩ := Classical.axiomOfChoice hcode
  have h1 := hlow L code hL (fun v hv => ⟨(hLr v hv).1, (hLr v hv).2.1⟩) fun v hv => (hc v hv).1
  have h2 := clashes_bound (nodeCodes b ls) (L.map code) (fun x hx => by
    obtain ⟨v, hv, rfl⟩ := List.mem_map.1 hx
    exact (hc v hv).2) m
  rw [List.length_map] at h2
  have h3 : (nodeCodes b ls).length = 256 ^ ls.length := by
    rw [nodeCodes, List.length_map, codesOf_length]
  rw [h3] at h2
  omega

/-- The number of strings that can be read from a node is determined. -/
theorem readable_unique {mem : Mem} {a n n' : Nat} (h : Readable mem a n) (h' : Readable mem a n') : n = n' := by
  obtain ⟨ws, h1, h2, rfl⟩ := h
  obtain ⟨ws', h1', h2', rfl⟩ := h'
  exact ((List.perm_ext_iff_of_nodup h1 h1').2 fun w => by rw [h2, h2']).length_eq

theorem sum_up (n : Nat) : 2 * ((List.range n).map (· + 1)).sum = n * (n + 1) := by
  induction n with
  | zero => rfl
  | succ n ih =>
    rw [List.range_succ, List.map_append, List.sum_append, Nat.mul_add, ih]
    simp only [List.map_cons, List.map_nil, List.sum_cons, List.sum_nil]
    have e1 : n * (n + 1) = n * n + n := by rw [Nat.mul_add]; omega
    have e2 : (n + 1) * (n + 1 + 1) = n * n + n + n + n + 1 + 1 := by
      rw [Nat.add_mul, Nat.mul_add, Nat.mul_add]; omega
    omega

theorem sum_down (n k : Nat) : 2 * ((List.range k).map (fun i => n + k - i)).sum = k * (k + 1) + 2 * (n * k) := by
  induction k generalizing n with
  | zero => rfl
  | succ k ih =>
    have e : (List.range k).map (fun i => n + (k + 1) - i) = (List.range k).map (fun i => (n + 1) + k - i) :=
      List.map_congr_left fun i _ => by omega
    rw [List.range_succ, List.map_append, List.sum_append, e, Nat.mul_add, ih]
    simp only [List.map_cons, List.map_nil, List.sum_cons, List.sum_nil]
    have e1 : k * (k + 1) = k * k + k := by rw [Nat.mul_add]; omega
    have e2 : (k + 1) * (k + 1 + 1) = k * k + k + k + k + 1 + 1 := by
      rw [Nat.add_mul, Nat.mul_add, Nat.mul_add]; omega
    have e3 : (n + 1) * k = n * k + k := by rw [Nat.add_mul]; omega
    have e4 : n * (k + 1) = n * k + n := by rw [Nat.mul_add]; omega
    omega

/-- C84, one word: the hash function is evaluated N (N + 1) times for a word of N characters. -/
theorem c84_word (sgn : Bool) {addr : Nat → Nat} {h : Heap} (ha : Allocator addr h) (t : Str) :
    ∃ h' d w, Ends (fun fuel => sortedDawg sgn addr fuel [t] h) (h', some d) ∧
      Ends (fun fuel => sortedDawgN sgn addr fuel [t] h) ((h', some d), w) ∧
      w.hashes = t.length * (t.length + 1) ∧ w.compares ≤ t.length * (t.length * (t.length + 1)) := by
  obtain ⟨h', d, w, h1, h2, h3, _⟩ := c84_work sgn ha (terms := [t]) (by simp [SortedTerms])
  obtain ⟨_, hf⟩ := finished_of_run ha h1
  obtain ⟨b, hb⟩ := hf.wordNodes
  have hsz : ∀ v, ∃ n, (∃ i ≤ t.length, v = b i) → Readable h'.mem v n := fun v => by
    by_cases hv : ∃ i ≤ t.length, v = b i
    · obtain ⟨i, hi, rfl⟩ := hv
      exact ⟨_, fun _ => hb.readable hi⟩
    · exact ⟨0, fun h => absurd h hv⟩
  obtain ⟨sz, hsz⟩ := Classical.axiomOfChoice hsz
  have hmemv : ∀ v, v ∈ (List.range t.length).map (fun i => b (i + 1)) ↔ Reaches h'.mem d.root v ∧ v ≠ d.root := by
    intro v
    rw [hb.reach, List.mem_map]
    constructor
    · rintro ⟨i, hi, rfl⟩
      rw [List.mem_range] at hi
      refine ⟨⟨i + 1, by omega, rfl⟩, fun he => ?_⟩
      rw [← hb.start] at he
      have := hb.inj _ _ (by omega) (by omega) he
      omega
    · rintro ⟨⟨i, hi, rfl⟩, hne⟩
      cases i with
      | zero => exact absurd hb.start hne
      | succ i => exact ⟨i, List.mem_range.2 (by omega), rfl⟩
  have hnv : ((List.range t.length).map (fun i => b (i + 1))).Nodup := by
    rw [List.Nodup, List.pairwise_map]
    refine List.Pairwise.imp_of_mem ?_ List.pairwise_lt_range
    intro i j hi hj hij he
    rw [List.mem_range] at hi hj
    have := hb.inj _ _ (by omega) (by omega) he
    omega
  have hnq : ((List.range t.length).map (fun i => t.take (i + 1))).Nodup := by
    rw [List.Nodup, List.pairwise_map]
    refine List.Pairwise.imp_of_mem ?_ List.pairwise_lt_range
    intro i j hi hj hij he
    rw [List.mem_range] at hi hj
    have := congrArg List.length he
    simp only [List.length_take] at this
    omega
  obtain ⟨g1, g2, _⟩ := h3 _ _ sz hnq (fun q => by
    rw [List.mem_map]
    simp only [List.mem_singleton, exists_eq_left]
    constructor
    · rintro ⟨i, hi, rfl⟩
      rw [List.mem_range] at hi
      exact ⟨fun he => by have := congrArg List.length he; simp only [List.length_take, List.length_nil] at this; omega,
        List.take_prefix _ _⟩
    · rintro ⟨hne, hp⟩
      have h4 := hp.length_le
      have h5 := List.length_pos_iff.2 hne
      refine ⟨q.length - 1, List.mem_range.2 (by omega), ?_⟩
      rw [show q.length - 1 + 1 = q.length by omega]
      exact (List.prefix_iff_eq_take.1 hp).symm) hnv hmemv (fun v hv => by
    obtain ⟨i, hi, rfl⟩ := List.mem_map.1 hv
    rw [List.mem_range] at hi
    exact hsz _ ⟨i + 1, by omega, rfl⟩)
  have e1 : ((List.range t.length).map (fun i => t.take (i + 1))).map List.length = (List.range t.length).map (· + 1) := by
    rw [List.map_map]
    refine List.map_congr_left fun i hi => ?_
    rw [List.mem_range] at hi
    simp only [Function.comp, List.length_take]
    omega
  have e2 : ((List.range t.length).map (fun i => b (i + 1))).map sz = (List.range t.length).map (fun i => 0 + t.length - i) := by
    rw [List.map_map]
    refine List.map_congr_left fun i hi => ?_
    rw [List.mem_range] at hi
    have := readable_unique (hsz (b (i + 1)) ⟨i + 1, by omega, rfl⟩) (hb.readable (i := i + 1) (by omega))
    simp only [Function.comp, this]
    omega
  rw [e1, e2] at g1
  rw [e1] at g2
  have e3 := sum_up t.length
  have e4 := sum_down 0 t.length
  refine ⟨h', d, w, h1, h2, by omega, ?_⟩
  rw [List.length_map, List.length_range, Nat.mul_comm 2, Nat.mul_assoc, e3] at g2
  exact g2

/-- C84, a word that repeats one character: the hash codes of its nodes clash, and the number of comparisons grows with the
square of the length. -/
theorem c84_quadratic (sgn : Bool) {addr : Nat → Nat} {h : Heap} (ha : Allocator addr h) (c : UInt8) (k : Nat) :
    ∃ h' d w, Ends (fun fuel => sortedDawgN sgn addr fuel [List.replicate (256 * k + 1) c] h) ((h', some d), w) ∧
      256 * (k * k - k) ≤ w.compares := by
  obtain ⟨h', d, w, h1, h2, _⟩ := c84_word sgn ha (List.replicate (256 * k + 1) c)
  obtain ⟨_, hf⟩ := finished_of_run ha h1
  obtain ⟨b, hb⟩ := hf.wordNodes
  have hlen : (List.replicate (256 * k + 1) c).length = 256 * k + 1 := List.length_replicate
  have hL : ((List.range (256 * k)).map (fun i => b (i + 1))).Nodup := by
    rw [List.Nodup, List.pairwise_map]
    refine List.Pairwise.imp_of_mem ?_ List.pairwise_lt_range
    intro i j hi hj hij he
    rw [List.mem_range] at hi hj
    have := hb.inj _ _ (by omega) (by omega) he
    omega
  have := c84_codes ha h2 _ hL false [c] (fun v hv => by
    obtain ⟨i, hi, rfl⟩ := List.mem_map.1 hv
    rw [List.mem_range] at hi
    refine ⟨(hb.reach _).2 ⟨i + 1, by omega, rfl⟩, fun he => ?_, _, hb.inner (i + 1) (by omega), rfl, ?_⟩
    · rw [← hb.start] at he
      have := hb.inj _ _ (by omega) (by omega) he
      omega
    · simp) k
  rw [List.length_map, List.length_range] at this
  simp only [List.length_cons, List.length_nil, Nat.zero_add, Nat.pow_one] at this
  refine ⟨h', d, w, h2, ?_⟩
  have e1 : k * (256 * k) = 256 * (k * k) := Nat.mul_left_comm _ _ _
  have e2 : k * (k + 1) = k * k + k := by rw [Nat.mul_add]; omega
  rw [e1, e2] at this
  rw [Nat.mul_sub]
  omega

/-! ### Cases -/

/-- The terms "a", "ab", "cb": the beginnings "a", "ab", "c", "cb" have 6 characters, and from the three nodes besides the root
one can read 1, 2 and 2 strings.  So 11 hash codes; and one comparison, which finds the last node of "ab" for "cb". -/
example : (sortedDawgN true (fun i => i + 1) 10 [[97], [97, 98], [99, 98]] exHeap).map (·.2) = .ok ⟨11, 1⟩ := by
  decide +kernel

/-- The hash code of its root takes five evaluations. -/
example : ∀ h' d, Ends (fun fuel => sortedDawg true (fun i => i + 1) fuel [[97], [97, 98], [99, 98]] exHeap) (h', some d) →
    ∃ x code, h'.mem d.root = some x ∧ Ends (fun fuel => nodeHashN h'.mem fuel x) (code, 5) := by
  intro h' d hr
  exact c83_built (ws := [[], [97], [97, 98], [99], [99, 98]]) exAllocator hr (by decide) (fun w => by
    simp only [List.mem_cons, List.not_mem_nil, or_false, exists_eq_or_imp, exists_eq_left, List.prefix_cons_iff,
      List.prefix_nil]
    grind)

/-- Two nodes with the same edge, one final: they are compared in one evaluation, though two strings can be read from
each. -/
example : ∃ mem : Mem, mem 0 = none ∧ DictNode true mem 2 1 ∧ DictNode true mem 2 2 ∧ Readable mem 1 2 ∧ Readable mem 2 2 ∧
    mem 1 = some ⟨false, [(97, 3)]⟩ ∧ mem 2 = some ⟨true, [(97, 3)]⟩ ∧
    nodeEqN mem 2 ⟨false, [(97, 3)]⟩ ⟨true, [(97, 3)]⟩ = .ok (false, 1) ∧
    nodeEqN mem 2 ⟨false, [(97, 3)]⟩ ⟨false, [(97, 3)]⟩ = .ok (true, 2) := by
  let mem : Mem := fun a => if a = 1 then some ⟨false, [(97, 3)]⟩ else if a = 2 then some ⟨true, [(97, 3)]⟩ else
    if a = 3 then some ⟨true, []⟩ else none
  have h3 : DictNode true mem 1 3 := .mk (nd := ⟨true, []⟩) rfl .nil (by simp)
  have hr : ∀ a b, mem a = some ⟨b, [(97, 3)]⟩ → DictNode true mem 2 a ∧ Readable mem a 2 := by
    intro a b hm
    refine ⟨.mk hm (by simp) (by simpa using h3), [[], [97]], by decide, fun w => ?_, rfl⟩
    constructor
    · intro hw
      simp only [List.mem_cons, List.not_mem_nil, or_false] at hw
      rcases hw with rfl | rfl
      · exact ⟨a, .here⟩
      · exact ⟨3, leads_cons hm (by simp) .here⟩
    · rintro ⟨x, hx⟩
      cases w with
      | nil => simp
      | cons c u =>
        obtain ⟨nd, y, h1, h2, hl⟩ := leads_cons_inv hx rfl
        rw [hm] at h1
        obtain rfl := Option.some.inj h1
        simp only [List.mem_singleton] at h2
        cases h2
        cases u with
        | nil => simp
        | cons c' u' =>
          obtain ⟨nd, y, h1, h2, hl⟩ := leads_cons_inv hl rfl
          have h1' : some (⟨true, []⟩ : DNode) = some nd := h1
          obtain rfl := Option.some.inj h1'
          simp at h2
  exact ⟨mem, rfl, (hr 1 _ rfl).1, (hr 2 _ rfl).1, (hr 1 _ rfl).2, (hr 2 _ rfl).2, rfl, rfl, by decide +kernel,
    by decide +kernel⟩

/-- Sixty-four letters: a file of at most 5184 bytes, and about 3.7 · 10^19 evaluations for one hash code. -/
example : ∃ bs h' d x code, bs.length ≤ 5184 ∧ deserializeStream true (fun i => i + 1) bs exHeap = .ok (h', some d) ∧
    h'.mem d.root = some x ∧ Ends (fun fuel => nodeHashN h'.mem fuel x) (code, 36893488147419103231) := by
  obtain ⟨bs, msg, h', d, x, code, h1, _, _, h2, _, h3, h4, _⟩ := c83_exponential true exAllocator (n := 64) (by decide)
  exact ⟨bs, h', d, x, code, h1, h2, h3, h4⟩

/-- A word of a thousand characters: 1001000 evaluations of the hash function. -/
example : ∃ h' d w, Ends (fun fuel => sortedDawgN true (fun i => i + 1) fuel [List.replicate 1000 120] exHeap)
    ((h', some d), w) ∧ w.hashes = 1001000 := by
  obtain ⟨h', d, w, _, h1, h2, _⟩ := c84_word true exAllocator (List.replicate 1000 120)
  exact ⟨h', d, w, h1, by rw [h2, List.length_replicate]⟩

/-- A word of 25601 times the same character: at least 2534400 comparisons, though no two of its nodes are equal. -/
example : ∃ h' d w, Ends (fun fuel => sortedDawgN true (fun i => i + 1) fuel [List.replicate (256 * 100 + 1) 120] exHeap)
    ((h', some d), w) ∧ 2534400 ≤ w.compares := by
  obtain ⟨h', d, w, h1, h2⟩ := c84_quadratic true exAllocator 120 100
  exact ⟨h', d, w, h1, Nat.le_trans (by decide) h2⟩

end Lev.Props
