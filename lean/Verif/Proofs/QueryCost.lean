import Verif.Model.QuerySteps
import Verif.Proofs.StateProps
import Verif.Proofs.QueryAll

/-!
What a query visits, and in how many iterations.
-/

namespace Lev

open Spec

/-! ### Viable prefixes -/

section
variable {A : Algorithm} {n : Nat} {q : Str}

theorem Spec.Viable.init {w : Str} {x : UInt8} (h : Viable A q n (w ++ [x])) : Viable A q n w := by
  obtain ⟨u, c, hc, h⟩ := h
  exact ⟨x :: u, c, hc, by simpa using h⟩

theorem viable_nil : Viable A q n [] := (initialState_sem A n q).viable

/-! ### The size of a state -/

/-- All positions without the mark that may occur after `m` characters. -/
def plainPositions (n m : Nat) : List Pos :=
  (List.range (n + 1)).flatMap fun e => (List.range (2 * e + 1)).map fun j => ⟨m + e - j, e, false⟩

/-- All positions with the mark that may occur after `m` characters. -/
def specialPositions (n m : Nat) : List Pos :=
  (List.range n).flatMap fun e => (List.range (2 * e + 1)).map fun j => ⟨m + (e + 1) - 2 - j, e + 1, true⟩

theorem odd_sum (g : Nat → Nat → Pos) (k : Nat) :
    ((List.range k).flatMap fun e => (List.range (2 * e + 1)).map (g e)).length = k * k := by
  induction k with
  | zero => rfl
  | succ k ih =>
    rw [List.range_succ, List.flatMap_append, List.length_append, ih]
    simp only [List.flatMap_cons, List.flatMap_nil, List.append_nil, List.length_map, List.length_range]
    rw [Nat.mul_add, Nat.add_mul]
    omega

theorem PosOk.mem_plain {m : Nat} {p : Pos} (h : PosOk A n q m p) (hs : p.special = false) :
    p ∈ plainPositions n m := by
  obtain ⟨i, e, sp⟩ := p
  simp only at hs
  subst hs
  have h1 := h.errors_le; have h2 := h.ahead; have h3 := h.behind
  simp only at h1 h2 h3
  simp only [plainPositions, List.mem_flatMap, List.mem_range, List.mem_map]
  exact ⟨e, by omega, m + e - i, by omega, by congr 1; omega⟩

theorem PosOk.mem_special {m : Nat} {p : Pos} (h : PosOk A n q m p) (hs : p.special = true) :
    p ∈ specialPositions n m := by
  obtain ⟨i, e, sp⟩ := p
  simp only at hs
  subst hs
  have h1 := h.errors_le; have h2 := (h.special_alg rfl).2.2; have h3 := h.behind
  have h4 := (h.special_alg rfl).2.1
  simp only at h1 h2 h3 h4
  simp only [specialPositions, List.mem_flatMap, List.mem_range, List.mem_map]
  refine ⟨e - 1, by omega, m + e - 2 - i, by omega, ?_⟩
  have : e - 1 + 1 = e := by omega
  rw [this]
  congr 1
  omega

theorem StateSem.length_le {w : Str} {l : List Pos} (h : StateSem A n q w l) :
    l.length ≤ (n + 1) * (n + 1) + if A = .standard then 0 else n * n := by
  have hnd : l.Nodup := h.inv.sorted.imp fun ⟨_, h2⟩ heq => h2 (by rw [heq]; exact ⟨rfl, rfl, fun _ => rfl⟩)
  by_cases hA : A = .standard
  · rw [if_pos hA, Nat.add_zero]
    have hsub : l ⊆ plainPositions n w.length := fun p hp => by
      have hok := h.inv.ok p hp
      refine hok.mem_plain ?_
      cases hs : p.special with
      | false => rfl
      | true => exact absurd hA (hok.special_alg hs).1
    have := hnd.length_le_of_subset hsub
    rwa [plainPositions, odd_sum] at this
  · rw [if_neg hA]
    have hsub : l ⊆ plainPositions n w.length ++ specialPositions n w.length := fun p hp => by
      have hok := h.inv.ok p hp
      rw [List.mem_append]
      cases hs : p.special with
      | false => exact .inl (hok.mem_plain hs)
      | true => exact .inr (hok.mem_special hs)
    have := hnd.length_le_of_subset hsub
    rwa [List.length_append, plainPositions, specialPositions, odd_sum, odd_sum] at this

end

/-! ### The iterations -/

section
variable {R : Type} {A : Algorithm} {n : Nat} {q : Str} {mem : Mem} {root : Nat} {upd : Str → Nat → R}

/-- An intersection stands for a prefix met in the dictionary and the state after reading it. -/
structure Visit (A : Algorithm) (n : Nat) (q : Str) (mem : Mem) (root : Nat) (I : Inter (List Pos)) : Prop where
  leads : Leads mem root I.str I.node
  state : ReachState A n q I.str I.state

/-- The state of affairs after `k` iterations: `E` are the prefixes taken from the queue with their nodes. -/
structure RunInv (A : Algorithm) (n : Nat) (q : Str) (mem : Mem) (root : Nat) (k : Nat) (Q : Query (List Pos) R)
    (E : List (Str × DNode)) : Prop where
  term : Q.term = q
  maxD : Q.maxD = n
  a : Q.a = windowMax n
  nodup : (E.map (·.1) ++ Q.pending.map Inter.str).Nodup
  visit : ∀ I ∈ Q.pending, Visit A n q mem root I
  done : ∀ e ∈ E, Viable A q n e.1 ∧ ∃ b, Leads mem root e.1 b ∧ mem b = some e.2
  parent : ∀ s ∈ E.map (·.1) ++ Q.pending.map Inter.str, s = [] ∨
    ∃ w ∈ E.map (·.1), ∃ x, s = w ++ [x] ∧ ∀ I, Q.cur = some I → I.str = w → x ∉ Q.edges.map (·.1)
  first : [] ∈ E.map (·.1) ++ Q.pending.map Inter.str
  closed : ∀ e ∈ E, ∀ x b, (x, b) ∈ e.2.edges → Viable A q n (e.1 ++ [x]) →
    e.1 ++ [x] ∈ E.map (·.1) ++ Q.pending.map Inter.str ∨ ∃ I, Q.cur = some I ∧ I.str = e.1 ∧ (x, b) ∈ Q.edges
  cur : Q.edges = [] ∨ ∃ I hd tl nd, Q.cur = some I ∧ Visit A n q mem root I ∧ I.state = hd :: tl ∧ Q.i = hd.index ∧
    Q.k = (if windowMax n < wsub q.length hd.index then windowMax n else wsub q.length hd.index) ∧
    (I.str, nd) ∈ E ∧ mem I.node = some nd ∧ Q.edges <:+ nd.edges
  count : k + Q.edges.length = (E.map (fun e => 1 + e.2.edges.length)).sum

theorem RunInv.start (r : R) : RunInv A n q mem root 0 (queryStart n q root r) [] := by
  refine ⟨rfl, rfl, rfl, by simp [queryStart], ?_, by simp, ?_, by simp [queryStart, Inter.str], by simp, .inl rfl, rfl⟩
  · intro I hI
    simp only [queryStart, List.mem_singleton] at hI
    subst hI
    exact ⟨.here, .init⟩
  · intro s hs
    simp only [queryStart, List.map_nil, List.nil_append, List.map_cons, List.mem_singleton] at hs
    exact .inl hs

theorem Spec.Leads.dictNode {sgn : Bool} {d a : Nat} (hd : DictNode sgn mem d a) {w : Str} {b : Nat}
    (h : Leads mem a w b) : ∃ d', DictNode sgn mem d' b := by
  induction h with
  | here => exact ⟨d, hd⟩
  | snoc _ hm he ih =>
    obtain ⟨d', ih⟩ := ih
    cases ih with
    | mk hm' _ hk =>
      rw [hm] at hm'
      obtain rfl := Option.some.inj hm'
      exact ⟨_, hk _ _ he⟩

theorem Spec.Leads.unique {sgn : Bool} {d a : Nat} (hd : DictNode sgn mem d a) {w : Str} {b c : Nat}
    (h : Leads mem a w b) (h' : Leads mem a w c) : b = c := by
  induction h generalizing c with
  | here =>
    generalize hw : ([] : Str) = w at h'
    cases h' with
    | here => rfl
    | snoc => simp at hw
  | @snoc w b nd x e hb hm he ih =>
    generalize hw : w ++ [x] = w' at h'
    cases h' with
    | here => simp at hw
    | @snoc w2 b2 nd2 x2 _ hb2 hm2 he2 =>
      obtain ⟨rfl, hx⟩ := List.append_inj' hw rfl
      simp only [List.cons.injEq, and_true] at hx
      subst hx
      obtain rfl := ih hb2
      rw [hm] at hm2
      obtain rfl := Option.some.inj hm2
      obtain ⟨d', hdb⟩ := hb.dictNode hd
      cases hdb with
      | mk hm' hs _ =>
        rw [hm] at hm'
        obtain rfl := Option.some.inj hm'
        have hinj : ∀ l : List (UInt8 × Nat), l.Pairwise (fun e f => charLt sgn e.1 f.1) → (x, e) ∈ l → (x, c) ∈ l →
            e = c := by
          intro l hl h1 h2
          induction hl with
          | nil => cases h1
          | cons hlt _ ih =>
            rcases List.mem_cons.1 h1 with g1 | g1 <;> rcases List.mem_cons.1 h2 with g2 | g2
            · rw [← g1] at g2; cases g2; rfl
            · exact (charLt_irrefl (g1 ▸ hlt _ g2)).elim
            · exact (charLt_irrefl (g2 ▸ hlt _ g1)).elim
            · exact ih g1 g2
        exact hinj _ hs he he2

theorem Spec.Leads.labels_nodup {sgn : Bool} {d a : Nat} (hd : DictNode sgn mem d a) {w : Str} {b : Nat} {nd : DNode}
    (h : Leads mem a w b) (hm : mem b = some nd) : (nd.edges.map (·.1)).Nodup := by
  obtain ⟨d', hdb⟩ := h.dictNode hd
  cases hdb with
  | mk hm' hs _ =>
    rw [hm] at hm'
    obtain rfl := Option.some.inj hm'
    exact List.pairwise_map.2 (hs.imp fun {e f} hlt heq => by rw [heq] at hlt; exact charLt_irrefl hlt)

/-- Reading `w` from a node visits less than `d` further nodes. -/
theorem Spec.Leads.length_lt {sgn : Bool} {d a : Nat} (hd : DictNode sgn mem d a) {w : Str} {b : Nat}
    (h : Leads mem a w b) : ∃ d', DictNode sgn mem d' b ∧ d' + w.length = d := by
  induction h with
  | here => exact ⟨d, hd, rfl⟩
  | snoc _ hm he ih =>
    obtain ⟨d', ih, hl⟩ := ih
    cases ih with
    | mk hm' _ hk =>
      rw [hm] at hm'
      obtain rfl := Option.some.inj hm'
      exact ⟨_, hk _ _ he, by simp; omega⟩

theorem RunInv.iter {sgn : Bool} (hd : Dictionary sgn mem root) (hn : n ≤ sizeMax) (hq : Spec.QueryFits n q)
    {k : Nat} {Q Q' : Query (List Pos) R} {stop : Bool} {E : List (Str × DNode)} (h : RunInv A n q mem root k Q E)
    (hit : queryIter (listBackend A n q.length) mem upd () Q = .ok ((), Q', stop)) :
    ∃ E', RunInv A n q mem root (k + 1) Q' E' := by
  obtain ⟨D, hD, hd⟩ := hd
  have hshort : ∀ {w b}, Leads mem root w b → w.length < 2 ^ 62 := by
    intro w b hl
    obtain ⟨d', hd', hlen⟩ := hl.length_lt hd
    cases hd' with
    | mk => omega
  cases hes : Q.edges with
  | nil =>
    cases hp : Q.pending with
    | nil => simp [queryIter, hes, hp] at hit
    | cons I rest =>
      have hI := h.visit I (by rw [hp]; simp)
      have hsem := hI.state.sem hn hq (Nat.le_of_lt (hshort hI.leads))
      cases hst : I.state with
      | nil => rw [hst] at hsem; exact absurd rfl hsem.inv.ne
      | cons p tl =>
        obtain ⟨d', hdn⟩ := hI.leads.dictNode hd
        cases hdn with
        | @mk _ _ nd hm hs hk =>
          have hdr : deref mem I.node = .ok nd := by unfold deref; rw [hm]
          simp only [queryIter, hes, hp, listBackend, hst, hdr, bind, Except.bind, pure, Except.pure, Except.ok.injEq,
            Prod.mk.injEq] at hit
          obtain ⟨_, rfl, _⟩ := hit
          have hnd := h.nodup
          rw [hp] at hnd
          simp only [List.map_cons] at hnd
          have hfresh : I.str ∉ E.map (·.1) := fun hin => by
            have := (List.nodup_append.1 hnd).2.2 _ hin I.str (by simp)
            exact this rfl
          have hperm : ∀ s, s ∈ (E ++ [(I.str, nd)]).map (·.1) ++ rest.map Inter.str ↔
              s ∈ E.map (·.1) ++ Q.pending.map Inter.str := by
            intro s; rw [hp]; simp
          refine ⟨E ++ [(I.str, nd)], h.term, h.maxD, h.a, ?_, fun J hJ => h.visit J (by rw [hp]; simp [hJ]), ?_, ?_, ?_, ?_,
            .inr ⟨I, p, tl, nd, rfl, hI, hst, rfl, by simp only [h.a, h.term], by simp, hm, List.suffix_refl _⟩, ?_⟩
          · simpa using hnd
          · intro e he
            rcases List.mem_append.1 he with he | he
            · exact h.done e he
            · simp only [List.mem_singleton] at he
              subst he
              exact ⟨hsem.viable, I.node, hI.leads, hm⟩
          · intro s hs'
            rcases h.parent s ((hperm s).1 hs') with rfl | ⟨w, hw, x, rfl, _⟩
            · exact .inl rfl
            · refine .inr ⟨w, by simp at hw ⊢; exact .inl hw, x, rfl, fun J hJ hstr => ?_⟩
              simp only [Option.some.injEq] at hJ
              subst hJ
              rw [hstr] at hfresh
              exact absurd hw hfresh
          · exact (hperm _).2 h.first
          · intro e he x b hxb hv
            rcases List.mem_append.1 he with he | he
            · rcases h.closed e he x b hxb hv with h1 | ⟨J, _, _, h3⟩
              · exact .inl ((hperm _).2 h1)
              · rw [hes] at h3; cases h3
            · simp only [List.mem_singleton] at he
              subst he
              exact .inr ⟨I, rfl, rfl, hxb⟩
          · have := h.count
            rw [hes] at this
            simp only [List.length_nil, Nat.add_zero] at this
            simp only [List.map_append, List.sum_append, List.map_cons, List.map_nil, List.sum_cons, List.sum_nil]
            omega
  | cons e es =>
    obtain ⟨label, target⟩ := e
    rcases h.cur with hc | ⟨I, p, tl, nd, hcur, hI, hst, hi, hk, hmemE, hm, hsuf⟩
    · rw [hes] at hc; cases hc
    · have hlen := hshort hI.leads
      have hsem := hI.state.sem hn hq (Nat.le_of_lt hlen)
      rw [hst] at hsem
      have hsm : Small n q I.str.length := ⟨hn, hq, hlen⟩
      have hhd := hsem.inv.ok p (by simp)
      obtain ⟨cv, hcv, hwin⟩ := charVec_window (x := label) hsm hhd.index_le
        (by have := hhd.behind; have := hhd.errors_le; omega)
      have hcv' : charVec label Q.term Q.k Q.i = .ok cv := by rw [h.term, hi, hk]; exact hcv
      rw [hes] at hsuf
      have hin : (label, target) ∈ nd.edges := hsuf.subset (by simp)
      have hlead : Leads mem root (I.str ++ [label]) target := .snoc hI.leads hm hin
      have hnodup := hI.leads.labels_nodup hd hm
      have hfreshL : label ∉ es.map (·.1) := by
        have := (hsuf.sublist.map (·.1)).nodup hnodup
        simp only [List.map_cons, List.nodup_cons] at this
        exact this.1
      have hcount : k + 1 + es.length = (E.map (fun e => 1 + e.2.edges.length)).sum := by
        have := h.count
        rw [hes] at this
        simp only [List.length_cons] at this
        omega
      have hes' : es <:+ nd.edges := (List.suffix_cons _ _).trans hsuf
      have hsubE : ∀ x, x ∈ es.map (·.1) → x ∈ Q.edges.map (·.1) := by
        intro x hx; rw [hes]; simp only [List.map_cons, List.mem_cons]; exact .inr hx
      rcases hsem.trans q.length hsm hwin with ⟨ht, hdead⟩ | ⟨l', ht, hsem'⟩
      · simp only [queryIter, hes, hcur, hcv', listBackend, hst, ht, Except.map, bind, Except.bind, pure, Except.pure,
          Except.ok.injEq, Prod.mk.injEq] at hit
        obtain ⟨_, rfl, _⟩ := hit
        refine ⟨E, h.term, h.maxD, h.a, h.nodup, h.visit, h.done, ?_, h.first, ?_,
          .inr ⟨I, p, tl, nd, rfl, hI, hst, hi, hk, hmemE, hm, hes'⟩, hcount⟩
        · intro s hs
          rcases h.parent s hs with rfl | ⟨w, hw, x, rfl, hx⟩
          · exact .inl rfl
          · exact .inr ⟨w, hw, x, rfl, fun J hJ hstr hmem => hx J (hcur.trans hJ) hstr (hsubE x hmem)⟩
        · intro e he x b hxb hv
          rcases h.closed e he x b hxb hv with h1 | ⟨J, h1, h2, h3⟩
          · exact .inl h1
          · rw [hes] at h3
            rcases List.mem_cons.1 h3 with h3 | h3
            · cases h3
              rw [hcur] at h1
              obtain rfl := Option.some.inj h1
              obtain ⟨u, hu⟩ := viable_iff.1 hv
              rw [← h2] at hu
              exact absurd hu (hdead u n (Nat.le_refl _))
            · exact .inr ⟨J, hcur.symm.trans h1, h2, h3⟩
      · have hreach : ReachState A n q (I.str ++ [label]) l' := by
          refine .step (hd := p) (tl := tl) (cv := cv) ?_ hcv ht
          rw [← hst]; exact hI.state
        have hJ : Visit A n q mem root (Inter.child label target l' I) := ⟨hlead, hreach⟩
        have hmain : ∀ Q' : Query (List Pos) R, Q'.term = Q.term → Q'.maxD = Q.maxD → Q'.a = Q.a → Q'.i = Q.i →
            Q'.k = Q.k → Q'.cur = Q.cur → Q'.edges = es →
            Q'.pending = Q.pending ++ [Inter.child label target l' I] → RunInv A n q mem root (k + 1) Q' E := by
          intro Q' e1 e2 e3 e4 e5 e6 e7 e8
          have hmem : ∀ s, s ∈ E.map (·.1) ++ Q'.pending.map Inter.str ↔
              s ∈ E.map (·.1) ++ Q.pending.map Inter.str ∨ s = I.str ++ [label] := by
            intro s; rw [e8]; simp [Inter.str, or_assoc]
          refine ⟨by rw [e1, h.term], by rw [e2, h.maxD], by rw [e3, h.a], ?_, ?_, h.done, ?_, (hmem _).2 (.inl h.first), ?_,
            .inr ⟨I, p, tl, nd, by rw [e6, hcur], hI, hst, by rw [e4, hi], by rw [e5, hk], hmemE, hm, by rw [e7]; exact hes'⟩,
            by rw [e7]; exact hcount⟩
          · rw [e8, List.map_append, ← List.append_assoc]
            refine List.nodup_append.2 ⟨h.nodup, by simp, ?_⟩
            intro s hs t ht heq
            simp only [List.map_cons, List.map_nil, List.mem_singleton, Inter.str] at ht
            subst heq
            subst ht
            rcases h.parent _ hs with h0 | ⟨w, hw, x, hx, hx'⟩
            · simp at h0
            · obtain ⟨hw', hx2⟩ := List.append_inj' hx rfl
              simp only [List.cons.injEq, and_true] at hx2
              subst hx2
              exact hx' I hcur hw' (by rw [hes]; simp)
          · intro J hJ'
            rw [e8] at hJ'
            rcases List.mem_append.1 hJ' with hJ' | hJ'
            · exact h.visit J hJ'
            · simp only [List.mem_singleton] at hJ'
              subst hJ'
              exact hJ
          · intro s hs
            rcases (hmem s).1 hs with hs | rfl
            · rcases h.parent s hs with rfl | ⟨w, hw, x, rfl, hx⟩
              · exact .inl rfl
              · refine .inr ⟨w, hw, x, rfl, fun J hJ hstr hmem => ?_⟩
                rw [e6] at hJ
                rw [e7] at hmem
                exact hx J hJ hstr (hsubE x hmem)
            · refine .inr ⟨I.str, List.mem_map.2 ⟨_, hmemE, rfl⟩, label, rfl, fun J hJ hstr hmem => ?_⟩
              rw [e7] at hmem
              exact hfreshL hmem
          · intro e he x b hxb hv
            rcases h.closed e he x b hxb hv with h1 | ⟨J, h1, h2, h3⟩
            · exact .inl ((hmem _).2 (.inl h1))
            · rw [hes] at h3
              rcases List.mem_cons.1 h3 with h3 | h3
              · cases h3
                rw [hcur] at h1
                obtain rfl := Option.some.inj h1
                exact .inl ((hmem _).2 (.inr (by rw [h2])))
              · exact .inr ⟨J, by rw [e6]; exact h1, h2, by rw [e7]; exact h3⟩
        obtain ⟨d', hdn⟩ := hlead.dictNode hd
        cases hdn with
        | @mk _ _ ndt hmt _ _ =>
          have hdr : deref mem target = .ok ndt := by unfold deref; rw [hmt]
          simp only [queryIter, hes, hcur, hcv', listBackend, hst, ht, hdr, Except.map, bind, Except.bind, pure,
            Except.pure] at hit
          split at hit
          · split at hit
            · cases hit; exact ⟨E, hmain _ rfl rfl rfl rfl rfl hcur.symm rfl rfl⟩
            · cases hit; exact ⟨E, hmain _ rfl rfl rfl rfl rfl hcur.symm rfl rfl⟩
          · cases hit; exact ⟨E, hmain _ rfl rfl rfl rfl rfl hcur.symm rfl rfl⟩

theorem QueryRun.inv {sgn : Bool} (hd : Dictionary sgn mem root) (hn : n ≤ sizeMax) (hq : Spec.QueryFits n q)
    {k : Nat} {Q : Query (List Pos) R} (h : QueryRun A n q mem root upd k Q) : ∃ E, RunInv A n q mem root k Q E := by
  induction h with
  | start r => exact ⟨[], .start r⟩
  | mark _ ih =>
    obtain ⟨E, h⟩ := ih
    exact ⟨E, h.term, h.maxD, h.a, h.nodup, h.visit, h.done, h.parent, h.first, h.closed, h.cur, h.count⟩
  | iter _ _ hit ih =>
    obtain ⟨E, h⟩ := ih
    exact h.iter hd hn hq hit

/-- At the end all viable prefixes have been visited. -/
theorem RunInv.finished {sgn : Bool} {d : Nat} (hd : DictNode sgn mem d root) {k : Nat} {Q : Query (List Pos) R}
    {E : List (Str × DNode)} (h : RunInv A n q mem root k Q E) (he : Q.edges = []) (hp : Q.pending = []) {w : Str}
    {b : Nat} (hl : Leads mem root w b) (hv : Viable A q n w) : w ∈ E.map (·.1) := by
  induction hl with
  | here =>
    have := h.first
    rw [hp] at this
    simpa using this
  | @snoc w b nd c e hb hm hce ih =>
    obtain ⟨⟨w', nd'⟩, h1, h2⟩ := List.mem_map.1 (ih hv.init)
    simp only at h2
    subst h2
    obtain ⟨_, b', hb', hm'⟩ := h.done _ h1
    obtain rfl := hb.unique hd hb'
    simp only at hm'
    rw [hm] at hm'
    obtain rfl := Option.some.inj hm'
    rcases h.closed _ h1 c e hce hv with h3 | ⟨_, _, _, h3⟩
    · rw [hp] at h3
      simpa using h3
    · rw [he] at h3; cases h3

/-! ### The functions of the model perform such iterations -/

theorem queryLoop_run {fuel : Nat} {k : Nat} {Q Q' : Query (List Pos) R} (h : QueryRun A n q mem root upd k Q)
    (hne : Q.edges ≠ [] ∨ Q.pending ≠ [])
    (hr : queryLoop (listBackend A n q.length) mem upd fuel () Q = .ok ((), Q')) :
    ∃ k', k ≤ k' ∧ QueryRun A n q mem root upd k' Q' := by
  induction fuel generalizing k Q with
  | zero => cases hr
  | succ fuel ih =>
    rw [queryLoop] at hr
    cases hi : queryIter (listBackend A n q.length) mem upd () Q with
    | error e => rw [hi] at hr; cases hr
    | ok r =>
      obtain ⟨⟨⟩, Q1, stop⟩ := r
      rw [hi] at hr
      simp only [bind, Except.bind, pure, Except.pure] at hr
      have h1 : QueryRun A n q mem root upd (k + 1) Q1 := .iter h hne hi
      split at hr
      · cases hr; exact ⟨k + 1, by omega, h1⟩
      · split at hr
        · cases hr; exact ⟨k + 1, by omega, h1⟩
        · next hne1 =>
          obtain ⟨k', hk, h2⟩ := ih h1 (QueryInv.more hne1) hr
          exact ⟨k', by omega, h2⟩

theorem queryAdvance_run {fuel : Nat} {k : Nat} {Q Q' : Query (List Pos) R} (h : QueryRun A n q mem root upd k Q)
    (hr : queryAdvance (listBackend A n q.length) mem upd fuel () Q = .ok ((), Q')) :
    ∃ k', k ≤ k' ∧ QueryRun A n q mem root upd k' Q' := by
  rw [queryAdvance] at hr
  split at hr
  · simp only [pure, Except.pure, Except.ok.injEq, Prod.mk.injEq, true_and] at hr
    subst hr
    exact ⟨k, Nat.le_refl _, .mark h⟩
  · next hne => exact queryLoop_run (.mark h) (QueryInv.more hne) hr

theorem queryBegin_run {fuel : Nat} {dflt : R} {Q : Query (List Pos) R}
    (hr : queryBegin (listBackend A n q.length) mem upd fuel dflt () root initialState q n = .ok ((), Q)) :
    ∃ k, QueryRun A n q mem root upd k Q := by
  rw [queryBegin] at hr
  cases hm : deref mem root with
  | error e => rw [hm] at hr; cases hr
  | ok nd =>
    rw [hm] at hr
    simp only [bind, Except.bind, pure, Except.pure] at hr
    split at hr
    · cases hr; exact ⟨0, .start _⟩
    · obtain ⟨k, _, h⟩ := queryAdvance_run (.start dflt) hr
      exact ⟨k, h⟩

theorem queryAdvances_run {fuel j : Nat} {k : Nat} {Q Q' : Query (List Pos) R} (h : QueryRun A n q mem root upd k Q)
    (hr : queryAdvances (listBackend A n q.length) mem upd fuel j () Q = .ok ((), Q')) :
    ∃ k', k ≤ k' ∧ QueryRun A n q mem root upd k' Q' := by
  induction j generalizing k Q with
  | zero => cases hr; exact ⟨k, Nat.le_refl _, h⟩
  | succ j ih =>
    rw [queryAdvances] at hr
    cases ha : queryAdvance (listBackend A n q.length) mem upd fuel () Q with
    | error e => rw [ha] at hr; cases hr
    | ok r =>
      obtain ⟨⟨⟩, Q1⟩ := r
      rw [ha] at hr
      obtain ⟨k1, h1, h2⟩ := queryAdvance_run h ha
      obtain ⟨k2, h3, h4⟩ := ih h2 hr
      exact ⟨k2, by omega, h4⟩


/-! ### A complete query has nothing left to do -/

/-- A query that is complete has an empty queue and no edges left. -/
def DoneIfComplete (Q : Query (List Pos) R) : Prop := Q.complete = true → Q.edges = [] ∧ Q.pending = []

theorem queryLoop_done {fuel : Nat} {Q Q' : Query (List Pos) R}
    (hr : queryLoop (listBackend A n q.length) mem upd fuel () Q = .ok ((), Q')) : DoneIfComplete Q' := by
  induction fuel generalizing Q with
  | zero => cases hr
  | succ fuel ih =>
    rw [queryLoop] at hr
    cases hi : queryIter (listBackend A n q.length) mem upd () Q with
    | error e => rw [hi] at hr; cases hr
    | ok r =>
      obtain ⟨⟨⟩, Q1, stop⟩ := r
      rw [hi] at hr
      simp only [bind, Except.bind, pure, Except.pure] at hr
      split at hr
      · next hstop =>
        cases hr
        subst hstop
        intro hc
        exfalso
        unfold queryIter at hi
        split at hi
        · split at hi
          · cases hi
          · simp only [bind, Except.bind, pure, Except.pure] at hi
            split at hi
            · cases hi
            · split at hi
              · cases hi
              · simp at hi
        · split at hi
          · cases hi
          · simp only [bind, Except.bind, pure, Except.pure] at hi
            split at hi
            · cases hi
            · split at hi
              · cases hi
              · split at hi
                · simp at hi
                · split at hi
                  · cases hi
                  · split at hi
                    · split at hi
                      · cases hi
                      · split at hi
                        · cases hi; cases hc
                        · simp at hi
                    · simp at hi
      · split at hr
        · next he =>
          cases hr
          intro _
          simpa using he
        · exact ih hr

theorem queryAdvance_done {fuel : Nat} {Q Q' : Query (List Pos) R}
    (hr : queryAdvance (listBackend A n q.length) mem upd fuel () Q = .ok ((), Q')) : DoneIfComplete Q' := by
  rw [queryAdvance] at hr
  split at hr
  · next he =>
    simp only [pure, Except.pure, Except.ok.injEq, Prod.mk.injEq, true_and] at hr
    subst hr
    intro _
    simpa using he
  · exact queryLoop_done hr

theorem complete_finished {fuel j : Nat} {dflt : R} {Q Q' : Query (List Pos) R}
    (hb : queryBegin (listBackend A n q.length) mem upd fuel dflt () root initialState q n = .ok ((), Q))
    (ha : queryAdvances (listBackend A n q.length) mem upd fuel j () Q = .ok ((), Q')) : DoneIfComplete Q' := by
  have h0 : DoneIfComplete Q := by
    rw [queryBegin] at hb
    cases hm : deref mem root with
    | error e => rw [hm] at hb; cases hb
    | ok nd =>
      rw [hm] at hb
      simp only [bind, Except.bind, pure, Except.pure] at hb
      split at hb
      · cases hb; intro h; cases h
      · exact queryAdvance_done hb
  clear hb
  induction j generalizing Q with
  | zero => cases ha; exact h0
  | succ j ih =>
    rw [queryAdvances] at ha
    cases hadv : queryAdvance (listBackend A n q.length) mem upd fuel () Q with
    | error e => rw [hadv] at ha; cases ha
    | ok r =>
      obtain ⟨⟨⟩, Q1⟩ := r
      rw [hadv] at ha
      exact ih ha (queryAdvance_done hadv)

end

end Lev
