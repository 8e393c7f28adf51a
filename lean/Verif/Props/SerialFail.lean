import Verif.Spec.SerialFail
import Verif.Proofs.SerialFail
import Verif.Props.Wire
import Verif.Props.DemoAny

/-!
# Property C94: saving and loading that fail

`deserializeStreamF` is `deserialize_protobuf` and `serializeFileF` is `serialize_protobuf` to a path, when memory or the
disk runs out (`Verif/Model/SerialFail.lean`).
-/

namespace Lev.Props

open Lev Spec

/-! ### Loading -/

/-- How a call that does not throw ends. -/
def loadEnd : Option SDawg → LoadEnd
  | some d => .dawg d
  | none => .null

/-- Some bytes, read without a failure. -/
theorem deserializeStreamF_of {sgn : Bool} {addr : Nat → Nat} {f : Option LFault} {bs : List UInt8} {h : Heap}
    (hp : f ≠ some .parse)
    (hf : ∀ msg, decodeMsg bs = some msg → fromProtoF sgn addr f msg h = (fromProto sgn addr msg h).map (fun r => (r.1, some r.2))) :
    deserializeStreamF sgn addr f bs h = (deserializeStream sgn addr bs h).map (fun r => (r.1, loadEnd r.2)) := by
  unfold deserializeStreamF deserializeStream
  rw [if_neg hp]
  cases hdec : decodeMsg bs with
  | none => rfl
  | some msg =>
    simp only [hf msg hdec]
    cases fromProto sgn addr msg h <;> rfl

/-- C94, loading anything: whatever the bytes are and wherever an allocation fails, the call is the one without failures, or
it throws.  If it throws, the older part of the memory is as before and can be gone on with, and what is left in it is what
`from_protobuf` would have made of the first nodes and the first edges of the message. -/
theorem c94_any_bytes (sgn : Bool) {addr : Nat → Nat} {h : Heap} (ha : Allocator addr h) (f : Option LFault)
    (bs : List UInt8) :
    deserializeStreamF sgn addr f bs h = (deserializeStream sgn addr bs h).map (fun r => (r.1, loadEnd r.2)) ∨
    ∃ h', deserializeStreamF sgn addr f bs h = .ok (h', .threw) ∧ f ≠ none ∧ Allocator addr h' ∧
      (∀ a, h.mem a ≠ none → h'.mem a = h.mem a) ∧ (decodeMsg bs = none → h' = h) ∧
      ∀ msg, decodeMsg bs = some msg → h'.count ≤ h.count + msg.nodeIds.length ∧
        ∃ i j d, (j = 0 ∨ i = msg.nodeIds.length) ∧
          fromProto sgn addr { msg with nodeIds := msg.nodeIds.take i, edges := msg.edges.take j } h = .ok (h', d) := by
  by_cases hp : f = some .parse
  · right
    subst hp
    refine ⟨h, by simp [deserializeStreamF], by simp, ha, fun _ _ => rfl, fun _ => rfl, fun msg _ => ⟨by omega, 0, 0, ?_⟩⟩
    exact ⟨_, .inl rfl, by simp [fromProto, makeNodes, makeEdges, bind, Except.bind]; rfl⟩
  · cases hdec : decodeMsg bs with
    | none => exact .inl (deserializeStreamF_of hp fun msg hm => by rw [hdec] at hm; cases hm)
    | some msg =>
      rcases fromProtoF_cases sgn addr f msg h with hc | ⟨g, h', d, hg, _, hc, c1, c2, c3⟩
      · exact .inl (deserializeStreamF_of hp fun m hm => by rw [hdec] at hm; cases hm; exact hc)
      · right
        obtain ⟨φ, hr⟩ := readAny_of_ok ha c3
        refine ⟨h', ?_, by simp [hg], ⟨ha.nonnull, ha.inj, hr.null, fun k hk => ?_⟩, fun a hne => ?_, by simp, ?_⟩
        · unfold deserializeStreamF
          rw [if_neg hp]
          simp only [hdec, hc, bind, Except.bind, pure, Except.pure]
        · rw [hr.old]
          · exact ha.fresh k (by have := hr.count; omega)
          · intro x hx he
            obtain ⟨j, _, j2, j3⟩ := hr.range x hx
            have := ha.inj _ _ (he.trans j3)
            omega
        · exact hr.old a fun x hx he => hne (by rw [he]; exact (hr.listed x hx).2)
        · intro m hm
          cases hm
          refine ⟨Nat.le_trans (fromProto_count c3) ?_, _, _, d, ?_, c3⟩
          · simp only [Msg.cut, List.length_take]; omega
          · cases g <;> simp [progress]

/-- The dictionary `d` in the memory `h'` is a copy of the one at `root`. -/
structure Copy (sgn : Bool) (mem : Mem) (k root size : Nat) (sgn' : Bool) (h' : Heap) (d : SDawg) : Prop where
  dict : DictNode sgn' h'.mem k d.root
  size : d.size = size
  terms : ∀ t, Accepts h'.mem d.root t ↔ Accepts mem root t

/-- Loading the message of a dictionary, and deleting what was loaded. -/
theorem load_copy {sgn : Bool} {mem : Mem} {k root size : Nat} (hd : DictNode sgn mem k root) {msg : Msg}
    (hm : MsgOf sgn mem root size msg) (sgn' : Bool) {addr : Nat → Nat} {h : Heap} (ha : Allocator addr h) :
    ∃ h' d', fromProto sgn' addr msg h = .ok (h', d') ∧ Copy sgn mem k root size sgn' h' d' ∧
      (∀ a, h.mem a ≠ none → h'.mem a = h.mem a) ∧
      ∃ h'', Ends (fun fuel => destroyDawg fuel h' d') h'' ∧ ∀ a, h''.mem a = h.mem a := by
  have hcl := DictNode.closed hd
  have hw := hm.wellFormed hcl
  obtain ⟨h', d', φ, h2, hr⟩ := wellFormed_from (sgn := sgn') ha hw
  have hroot : d'.root = φ root := by rw [hr.root, hm.root_id]
  have hdict : DictNode sgn' h'.mem k d'.root := by rw [hroot]; exact hm.dictNode hr hcl hd .refl
  refine ⟨h', d', h2, ⟨hdict, by rw [hr.size, hm.size_eq], fun t => ?_⟩, fun a hne => hr.oldAlive ha hne, ?_⟩
  · rw [hroot]; exact hm.accepts hr hcl .refl t
  · obtain ⟨h'', d1, d2, _⟩ := hr.destroy ha hw.root hw.target hdict
    refine ⟨h'', d1, fun a => d2 a fun x hx _ => ?_⟩
    rw [hm.root_id]
    exact hm.msgReaches .refl hcl ((hm.mem_ids x).1 hx)

/-- The bytes of a dictionary. -/
theorem stream_msg {sgn : Bool} {mem : Mem} {root size : Nat} {msg : Msg} {bs : List UInt8}
    (hmsg : Ends (fun fuel => toProto sgn mem fuel root size) msg)
    (hw : Ends (fun fuel => serializeStream sgn mem fuel root size) (some bs)) :
    bs = encodeBytes msg ∧ (encodeBytes msg).length ≤ maxBytes := by
  have henc : encodeMsg msg = some bs := by
    obtain ⟨N, hN⟩ := hmsg
    refine Ends.unique ⟨N, fun fuel hfu => ?_⟩ hw
    have : toProto sgn mem fuel root size = .ok msg := hN fuel hfu
    simp only [serializeStream, this, bind, Except.bind]
    rfl
  unfold encodeMsg at henc
  split at henc
  · next hl => cases henc; exact ⟨rfl, hl⟩
  · cases henc

/-- C94, loading what was saved: a dictionary whose message has `V` nodes, `F` final nodes and `E` edges.  The call throws
exactly if it comes past the failing allocation; then as many new nodes as have been made by that time, and nothing else,
are left in the memory.  If not, the dictionary is right.  There is no undefined behaviour. -/
theorem c94_load {sgn : Bool} {mem : Mem} {k root size : Nat} (hd : DictNode sgn mem k root)
    (haddr : ∀ a, Reaches mem root a → a < 2 ^ 64) (hsize : size < 2 ^ 64) :
    ∃ msg, Ends (fun fuel => toProto sgn mem fuel root size) msg ∧
      ∀ bs, Ends (fun fuel => serializeStream sgn mem fuel root size) (some bs) →
      ∀ (sgn' : Bool) (addr : Nat → Nat) (h : Heap), Allocator addr h → ∀ f : LFault,
        (Strikes msg.nodeIds.length msg.finalIds.length msg.edges.length f →
          ∃ h', deserializeStreamF sgn' addr (some f) bs h = .ok (h', .threw) ∧
            Litter addr h h' (lost msg.nodeIds.length f) ∧ h'.count = h.count + lost msg.nodeIds.length f ∧
            Allocator addr h') ∧
        (¬ Strikes msg.nodeIds.length msg.finalIds.length msg.edges.length f →
          ∃ h' d', deserializeStreamF sgn' addr (some f) bs h = .ok (h', .dawg d') ∧
            Copy sgn mem k root size sgn' h' d' ∧ (∀ a, h.mem a ≠ none → h'.mem a = h.mem a) ∧
            ∃ h'', Ends (fun fuel => destroyDawg fuel h' d') h'' ∧ ∀ a, h''.mem a = h.mem a) := by
  obtain ⟨msg, h1, hm⟩ := toProto_spec hd size
  have hcl := DictNode.closed hd
  have ht := hm.tidy hcl
  refine ⟨msg, h1, fun bs hbs sgn' addr h ha f => ?_⟩
  obtain ⟨rfl, hl⟩ := stream_msg h1 hbs
  have hdec : decodeMsg (encodeBytes msg) = some msg := decode_encode (hm.fits hcl haddr hsize) hl
  by_cases hp : f = .parse
  · subst hp
    refine ⟨fun _ => ⟨h, by simp [deserializeStreamF], ⟨fun _ _ => rfl, fun a => by simp [lost]⟩, rfl, ha⟩,
      fun hn => absurd trivial hn⟩
  · have hp' : some f ≠ some LFault.parse := by simpa using hp
    obtain ⟨g1, g2⟩ := fromProtoF_tidy (sgn := sgn') ha ht hp
    refine ⟨fun hs => ?_, fun hs => ?_⟩
    · obtain ⟨h', r1, r2⟩ := g1 hs
      refine ⟨h', ?_, r2⟩
      unfold deserializeStreamF
      rw [if_neg hp']
      simp only [hdec, r1, bind, Except.bind, pure, Except.pure]
    · obtain ⟨h', d', c1, c2⟩ := load_copy hd hm sgn' ha
      refine ⟨h', d', ?_, c2⟩
      rw [deserializeStreamF_of hp' fun m hmm => by rw [hdec] at hmm; cases hmm; exact g2 hs]
      simp only [deserializeStream, hdec, c1, bind, Except.bind]
      rfl

/-- C94, trying again: a caller who repeats the call as long as it throws gets the right dictionary at last.  When that is
deleted, the nodes of all the calls that threw are still there, and nothing else that is new. -/
theorem c94_retry {sgn : Bool} {mem : Mem} {k root size : Nat} (hd : DictNode sgn mem k root)
    (haddr : ∀ a, Reaches mem root a → a < 2 ^ 64) (hsize : size < 2 ^ 64) :
    ∃ msg, Ends (fun fuel => toProto sgn mem fuel root size) msg ∧
      ∀ bs, Ends (fun fuel => serializeStream sgn mem fuel root size) (some bs) →
      ∀ (sgn' : Bool) (addr : Nat → Nat) (fs : List LFault) (h : Heap), Allocator addr h →
        ∃ h' d' h'', loadCallsF sgn' addr bs fs h = .ok (h', .dawg d') ∧ Copy sgn mem k root size sgn' h' d' ∧
          (∀ a, h.mem a ≠ none → h'.mem a = h.mem a) ∧ Ends (fun fuel => destroyDawg fuel h' d') h'' ∧
          Litter addr h h'' (lostAll msg.nodeIds.length msg.finalIds.length msg.edges.length fs) := by
  obtain ⟨msg, h1, hload⟩ := c94_load hd haddr hsize
  refine ⟨msg, h1, fun bs hbs sgn' addr fs => ?_⟩
  have same : ∀ {h h'' : Heap}, (∀ a, h''.mem a = h.mem a) → Litter addr h h'' 0 := fun he =>
    ⟨fun a _ => he a, fun a => by simp [he a]⟩
  induction fs with
  | nil =>
    intro h ha
    obtain ⟨h', d', c1, c2, c3, h'', c4, c5⟩ := (hload bs hbs sgn' addr h ha (.root)).2 (by simp [Strikes])
    refine ⟨h', d', h'', ?_, c2, c3, c4, same c5⟩
    rcases c94_any_bytes sgn' ha none bs with hc | ⟨_, _, hn, _⟩
    · rcases c94_any_bytes sgn' ha (some .root) bs with hc' | ⟨_, hc', _⟩
      · rw [loadCallsF, hc, ← hc', c1]
      · rw [c1] at hc'; simp at hc'
    · exact absurd rfl hn
  | cons f fs ih =>
    intro h ha
    obtain ⟨g1, g2⟩ := hload bs hbs sgn' addr h ha f
    by_cases hs : Strikes msg.nodeIds.length msg.finalIds.length msg.edges.length f
    · obtain ⟨h1, r1, r2, r3, r4⟩ := g1 hs
      obtain ⟨h', d', h'', c1, c2, c3, c4, c5⟩ := ih h1 r4
      refine ⟨h', d', h'', ?_, c2, fun a hne => ?_, c4, ?_⟩
      · simp only [loadCallsF, r1, bind, Except.bind]
        exact c1
      · have := r2.old a hne
        rw [c3 a (by rw [this]; exact hne), this]
      · simp only [lostAll, if_pos hs]
        exact r2.trans r3 c5
    · obtain ⟨h', d', c1, c2, c3, h'', c4, c5⟩ := g2 hs
      refine ⟨h', d', h'', ?_, c2, c3, c4, ?_⟩
      · simp only [loadCallsF, c1, bind, Except.bind]
        rfl
      · simp only [lostAll, if_neg hs]
        exact same c5

/-! ### Saving -/

/-- C94, saving to a path, wherever an allocation fails and however much the disk takes.  Let `w` be the outcome of writing
to a stream that takes everything (`none` if the message is too large).

* No other file is touched, and there is no undefined behaviour.
* The file has its old content if the exception came before it was opened, or if it cannot be opened; true is not returned.
* In all other cases the old content is lost, and the file has a beginning of the right bytes.
* The call throws exactly if an allocation failed.
* It returns true exactly if no allocation failed, the file could be opened, the message is not too large, and the disk took
  all but the bytes that were left for closing the file. -/
theorem c94_save {sgn : Bool} {mem : Mem} {k root size : Nat} (hd : DictNode sgn mem k root) :
    ∃ w, Ends (fun fuel => serializeStream sgn mem fuel root size) w ∧
      ∀ (f : Option SFault) (disk : Disk) (fs : Files) (path : Str), ∃ fs' r,
        Ends (fun fuel => serializeFileF sgn mem fuel f disk root size fs path) (fs', r) ∧
        fs'.writable = fs.writable ∧ (∀ p, p ≠ path → fs'.read p = fs.read p) ∧
        (f = some .path ∨ fs.writable path = false → fs'.read path = fs.read path) ∧
        (f ≠ some .path ∧ fs.writable path = true → ∃ n, n ≤ disk.room ∧ fs'.read path = some ((w.getD []).take n)) ∧
        (f = none ∧ fs.writable path = true → fs'.read path = some ((w.getD []).take disk.room)) ∧
        (r = .threw ↔ f ≠ none) ∧
        (r = .returned true ↔ f = none ∧ fs.writable path = true ∧
          ∃ bs, w = some bs ∧ bs.length ≤ disk.room + disk.pending) := by
  obtain ⟨msg, h1, hm⟩ := toProto_spec hd size
  obtain ⟨N, hN⟩ := h1
  have hw : Ends (fun fuel => serializeStream sgn mem fuel root size) (encodeMsg msg) := by
    refine ⟨N, fun fuel hfu => ?_⟩
    have : toProto sgn mem fuel root size = .ok msg := hN fuel hfu
    simp only [serializeStream, this, bind, Except.bind]
    rfl
  have hput : ∀ (fs : Files) (path : Str) (bs : List UInt8), (fs.put path bs).writable = fs.writable ∧
      (∀ p, p ≠ path → (fs.put path bs).read p = fs.read p) ∧ (fs.put path bs).read path = some bs := by
    intro fs path bs
    exact ⟨rfl, fun p hp => if_neg hp, if_pos rfl⟩
  refine ⟨encodeMsg msg, hw, fun f disk fs path => ?_⟩
  cases hwr : fs.writable path with
  | false =>
    have hsame : ∀ r : SaveEnd, (r = .threw ↔ f ≠ none) → r ≠ .returned true →
        fs.writable = fs.writable ∧ (∀ p, p ≠ path → fs.read p = fs.read p) ∧
        (f = some .path ∨ false = false → fs.read path = fs.read path) ∧
        (f ≠ some .path ∧ false = true → ∃ n, n ≤ disk.room ∧ fs.read path = some (((encodeMsg msg).getD []).take n)) ∧
        (f = none ∧ false = true → fs.read path = some (((encodeMsg msg).getD []).take disk.room)) ∧
        (r = .threw ↔ f ≠ none) ∧
        (r = .returned true ↔ f = none ∧ false = true ∧
          ∃ bs, encodeMsg msg = some bs ∧ bs.length ≤ disk.room + disk.pending) := fun r hr hr' =>
      ⟨rfl, fun _ _ => rfl, fun _ => rfl, by simp, by simp, hr, by simp [hr']⟩
    cases f with
    | none =>
      refine ⟨fs, .returned false, ⟨N, fun fuel hfu => ?_⟩, hsame _ (by simp) (by simp)⟩
      have : toProto sgn mem fuel root size = .ok msg := hN fuel hfu
      simp [serializeFileF, hwr, this, bind, Except.bind]
    | some g =>
      refine ⟨fs, .threw, ⟨N, fun fuel hfu => ?_⟩, hsame _ (by simp) (by simp)⟩
      have : toProto sgn mem fuel root size = .ok msg := hN fuel hfu
      cases g <;> simp [serializeFileF, hwr, this, bind, Except.bind]
  | true =>
    cases f with
    | none =>
      cases henc : encodeMsg msg with
      | none =>
        obtain ⟨p1, p2, p3⟩ := hput fs path []
        refine ⟨fs.put path [], .returned false, ⟨N, fun fuel hfu => ?_⟩, p1, p2, by simp, fun _ => ⟨0, Nat.zero_le _, by simp [p3]⟩,
          fun _ => by simp [p3], by simp, by simp⟩
        have : toProto sgn mem fuel root size = .ok msg := hN fuel hfu
        simp [serializeFileF, hwr, this, henc, bind, Except.bind]
      | some bs =>
        obtain ⟨p1, p2, p3⟩ := hput fs path (bs.take disk.room)
        refine ⟨fs.put path (bs.take disk.room), .returned (decide (bs.length - disk.pending ≤ disk.room)),
          ⟨N, fun fuel hfu => ?_⟩, p1, p2, by simp, fun _ => ⟨disk.room, Nat.le_refl _, by simp [p3]⟩,
          fun _ => by simp [p3], by simp, ?_⟩
        · have : toProto sgn mem fuel root size = .ok msg := hN fuel hfu
          simp [serializeFileF, hwr, this, henc, bind, Except.bind]
        · simp only [SaveEnd.returned.injEq, decide_eq_true_eq, true_and, Option.some.injEq]
          constructor
          · intro h; exact ⟨bs, rfl, by omega⟩
          · rintro ⟨_, rfl, h⟩; omega
    | some g =>
      have hthrow : ∀ fs' : Files, (fs'.writable = fs.writable ∧ (∀ p, p ≠ path → fs'.read p = fs.read p)) →
          (g = .path → fs'.read path = fs.read path) →
          (g ≠ .path → ∃ n, n ≤ disk.room ∧ fs'.read path = some (((encodeMsg msg).getD []).take n)) →
          (∃ M, ∀ fuel, M ≤ fuel → serializeFileF sgn mem fuel (some g) disk root size fs path = .ok (fs', .threw)) →
          ∃ fs' r, Ends (fun fuel => serializeFileF sgn mem fuel (some g) disk root size fs path) (fs', r) ∧
            fs'.writable = fs.writable ∧ (∀ p, p ≠ path → fs'.read p = fs.read p) ∧
            (some g = some .path ∨ true = false → fs'.read path = fs.read path) ∧
            (some g ≠ some .path ∧ true = true → ∃ n, n ≤ disk.room ∧ fs'.read path = some (((encodeMsg msg).getD []).take n)) ∧
            (some g = none ∧ true = true → fs'.read path = some (((encodeMsg msg).getD []).take disk.room)) ∧
            (r = .threw ↔ some g ≠ none) ∧
            (r = .returned true ↔ some g = none ∧ true = true ∧
              ∃ bs, encodeMsg msg = some bs ∧ bs.length ≤ disk.room + disk.pending) := by
        intro fs' c1 c2 c3 c4
        exact ⟨fs', .threw, c4, c1.1, c1.2, by simpa using c2, by simpa using c3, by simp, by simp, by simp⟩
      cases g with
      | path => exact hthrow fs ⟨rfl, fun _ _ => rfl⟩ (fun _ => rfl) (by simp) ⟨0, fun fuel _ => by simp [serializeFileF]⟩
      | «open» =>
        obtain ⟨p1, p2, p3⟩ := hput fs path []
        exact hthrow _ ⟨p1, p2⟩ (by simp) (fun _ => ⟨0, Nat.zero_le _, by simp [p3]⟩)
          ⟨0, fun fuel _ => by simp [serializeFileF, hwr]⟩
      | message =>
        obtain ⟨p1, p2, p3⟩ := hput fs path []
        exact hthrow _ ⟨p1, p2⟩ (by simp) (fun _ => ⟨0, Nat.zero_le _, by simp [p3]⟩)
          ⟨0, fun fuel _ => by simp [serializeFileF, hwr]⟩
      | writing n =>
        obtain ⟨p1, p2, p3⟩ := hput fs path ((((encodeMsg msg).getD []).take n).take disk.room)
        refine hthrow _ ⟨p1, p2⟩ (by simp) (fun _ => ⟨min disk.room n, Nat.min_le_left _ _, ?_⟩) ⟨N, fun fuel hfu => ?_⟩
        · rw [p3, List.take_take]
        · have : toProto sgn mem fuel root size = .ok msg := hN fuel hfu
          simp [serializeFileF, hwr, this, bind, Except.bind]

/-- C94: if no allocation fails and the disk takes everything, saving is the one without failures. -/
theorem c94_no_failure (sgn : Bool) (mem : Mem) (fuel root size pending room : Nat) (fs : Files) (path : Str)
    (hroom : maxBytes ≤ room) :
    serializeFileF sgn mem fuel none ⟨room, pending⟩ root size fs path =
      (serializeFile sgn mem fuel root size fs path).map fun r => (r.1, .returned r.2) := by
  unfold serializeFileF serializeFile serializeStream
  simp only [reduceCtorEq, if_false, or_self]
  cases toProto sgn mem fuel root size with
  | error e => rfl
  | ok msg =>
    simp only [bind, Except.bind, pure, Except.pure]
    cases hw : fs.writable path with
    | false => simp [Except.map]
    | true =>
      cases henc : encodeMsg msg with
      | none => simp [Except.map, Files.put]
      | some bs =>
        have hl : bs.length ≤ room := by
          unfold encodeMsg at henc
          split at henc
          · next hl => cases henc; omega
          · cases henc
        simp [Except.map, Files.put, List.take_of_length_le hl]
        omega

/-- C94: if no allocation fails, loading is the one without failures. -/
theorem c94_no_failure_loading (sgn : Bool) (addr : Nat → Nat) (bs : List UInt8) (h : Heap) :
    deserializeStreamF sgn addr none bs h = (deserializeStream sgn addr bs h).map (fun r => (r.1, loadEnd r.2)) := by
  refine deserializeStreamF_of (by simp) fun msg _ => ?_
  rcases fromProtoF_cases sgn addr none msg h with hc | ⟨g, _, _, hg, _⟩
  · exact hc
  · cases hg

/-- The dictionary of the empty word, at address 1. -/
def exLone : Mem := fun a => if a = 1 then some ⟨true, []⟩ else none

theorem exLone_dict : DictNode true exLone 1 1 := .mk (nd := ⟨true, []⟩) rfl (by simp) (by simp)

theorem exLone_bytes : Ends (fun fuel => serializeStream true exLone fuel 1 1) (some [10, 1, 1, 18, 1, 1, 32, 1, 40, 1]) := by
  refine ⟨1, fun fuel hf => ?_⟩
  obtain ⟨f, rfl⟩ : ∃ f, fuel = f + 1 := ⟨fuel - 1, by omega⟩
  have : toProto true exLone (f + 1) 1 1 = .ok { nodeIds := [1], finalIds := [1], edges := [], rootId := 1, size := 1 } := by
    simp [toProto, collectNodes, collectEdges, deref, setInsert, exLone, bind, Except.bind, pure, Except.pure]
  simp only [serializeStream, this, bind, Except.bind]
  decide +kernel

/-- C94, the claim that the file is complete if true is returned is false: what is left in the buffer of the stream is
written when the file is closed, and nobody asks whether that succeeded. -/
theorem c94_true_incomplete :
    ¬ ∀ (sgn : Bool) (mem : Mem) (k root size : Nat) (bs : List UInt8) (disk : Disk) (fs fs' : Files) (path : Str),
      DictNode sgn mem k root → Ends (fun fuel => serializeStream sgn mem fuel root size) (some bs) →
      Ends (fun fuel => serializeFileF sgn mem fuel none disk root size fs path) (fs', .returned true) →
      fs'.read path = some bs := by
  intro hall
  obtain ⟨w, hw, hs⟩ := c94_save (size := 1) exLone_dict
  have hwb := Ends.unique hw exLone_bytes
  subst hwb
  obtain ⟨fs', r, r1, _, _, _, _, r2, _, r3⟩ := hs none ⟨4, 6⟩ ⟨fun _ => none, fun _ => true⟩ []
  have hr := r3.2 ⟨rfl, rfl, _, rfl, by decide⟩
  subst hr
  have h1 := hall _ _ _ _ _ _ _ _ _ _ exLone_dict exLone_bytes r1
  rw [r2 ⟨rfl, rfl⟩] at h1
  simp at h1

/-- C94, what holds if true is returned: at most the bytes left for closing the file are missing at its end, and the file is
complete if the disk has taken these too. -/
theorem c94_true_partial {sgn : Bool} {mem : Mem} {k root size : Nat} (hd : DictNode sgn mem k root) {f : Option SFault}
    {disk : Disk} {fs fs' : Files} {path : Str}
    (hr : Ends (fun fuel => serializeFileF sgn mem fuel f disk root size fs path) (fs', .returned true)) :
    ∃ bs, Ends (fun fuel => serializeStream sgn mem fuel root size) (some bs) ∧
      fs'.read path = some (bs.take disk.room) ∧ bs.length ≤ disk.room + disk.pending ∧
      (fs'.read path = some bs ↔ bs.length ≤ disk.room) := by
  obtain ⟨w, hw, hs⟩ := c94_save (size := size) hd
  obtain ⟨fs'', r, r1, _, _, _, _, r2, _, r3⟩ := hs f disk fs path
  cases Ends.unique hr r1
  obtain ⟨hf, hwr, bs, rfl, hl⟩ := r3.1 rfl
  have hread := r2 ⟨hf, hwr⟩
  refine ⟨bs, hw, hread, hl, ?_⟩
  rw [hread]
  simp only [Option.getD_some, Option.some.injEq]
  refine ⟨fun he => ?_, List.take_of_length_le⟩
  have := congrArg List.length he
  rw [List.length_take] at this
  omega

/-- Reading nothing at all gives a dictionary without a root. -/
theorem load_nothing (sgn : Bool) {addr : Nat → Nat} {h : Heap} (ha : Allocator addr h) :
    ∃ d, deserializeStream sgn addr [] h = .ok (h, some d) ∧ d.size = 0 ∧ d.root = 0 ∧
      (∀ fuel, destroyDawg (fuel + 1) h d = .error .ub) ∧ ∀ t, containsTerm h.mem d.root t = .ok false := by
  have hdec : decodeMsg [] = some Msg.empty := by decide +kernel
  have hfrom : fromProto sgn addr Msg.empty h = .ok (h, ⟨0, 0, none, none, none, []⟩) := by
    simp [fromProto, Msg.empty, makeNodes, makeEdges, nodeOf, bind, Except.bind]
  obtain ⟨_, u2, u3⟩ := c31_unlisted_root ha (by simp [Msg.empty]) hfrom
  refine ⟨⟨0, 0, none, none, none, []⟩, ?_, rfl, rfl, u2, u3⟩
  simp only [deserializeStream, hdec, hfrom, bind, Except.bind]
  rfl

/-- C94, loading after saving: whatever went wrong, loading the file afterwards gives
* what loading it before would have given, if it was not opened, or
* the null pointer, or
* a dictionary without a root, or
* the whole dictionary, with its size or with size 0.

It never gives some of the terms only, or others. -/
theorem c94_load_after_save {sgn : Bool} {mem : Mem} {k root size : Nat} (hd : DictNode sgn mem k root)
    (hnull : ¬ Reaches mem root 0) (haddr : ∀ a, Reaches mem root a → a < 2 ^ 64) (hsize : size < 2 ^ 64)
    {f : Option SFault} {disk : Disk} {fs fs' : Files} {path : Str} {r : SaveEnd}
    (hr : Ends (fun fuel => serializeFileF sgn mem fuel f disk root size fs path) (fs', r))
    (sgn' : Bool) {addr : Nat → Nat} {h : Heap} (ha : Allocator addr h) :
    (r ≠ .returned true ∧ (f = some .path ∨ fs.writable path = false) ∧
      deserializeFile sgn' addr fs' path h = deserializeFile sgn' addr fs path h) ∨
    deserializeFile sgn' addr fs' path h = .ok (h, none) ∨
    ∃ h' d', deserializeFile sgn' addr fs' path h = .ok (h', some d') ∧
      ((d'.size = 0 ∧ d'.root = 0 ∧ (∀ fuel, destroyDawg (fuel + 1) h' d' = .error .ub) ∧
          ∀ t, containsTerm h'.mem d'.root t = .ok false) ∨
       Copy sgn mem k root size sgn' h' d' ∨ Copy sgn mem k root 0 sgn' h' d') := by
  obtain ⟨w, hw, hs⟩ := c94_save (size := size) hd
  obtain ⟨fs'', r', r1, _, _, r2, r3, _, _, r4⟩ := hs f disk fs path
  cases Ends.unique hr r1
  by_cases hopen : f = some .path ∨ fs.writable path = false
  · left
    refine ⟨fun ht => ?_, hopen, by simp only [deserializeFile, r2 hopen]⟩
    obtain ⟨h1, h2, _⟩ := r4.1 ht
    rcases hopen with h | h
    · rw [h1] at h; cases h
    · rw [h2] at h; cases h
  · right
    have hopen' : f ≠ some .path ∧ fs.writable path = true := by simpa [not_or] using hopen
    obtain ⟨n, _, hread⟩ := r3 hopen'
    have hfile : deserializeFile sgn' addr fs' path h = deserializeStream sgn' addr ((w.getD []).take n) h := by
      simp only [deserializeFile, hread]
    rw [hfile]
    cases w with
    | none =>
      obtain ⟨d, d1, d2⟩ := load_nothing sgn' ha
      refine .inr ⟨h, d, by simpa using d1, .inl d2⟩
    | some bs =>
      simp only [Option.getD_some]
      by_cases hall : bs.take n = bs
      · rw [hall]
        obtain ⟨r0, e1, e2⟩ := c61_bytes_round_trip hd haddr hsize
        cases Ends.unique hw e1
        obtain ⟨h', d', g1, g2, g3, g4, _⟩ := e2 bs rfl sgn' addr h ha
        exact .inr ⟨h', d', g1, .inr (.inl ⟨g2, g3, g4⟩)⟩
      · rcases c62_truncated_files_partial hd hnull haddr hsize hw (List.take_prefix n bs) hall sgn' ha with
          h1 | ⟨h', d', g1, g2, ⟨g3, g4, g5⟩ | ⟨_, g4, g5⟩⟩
        · exact .inl h1
        · exact .inr ⟨h', d', g1, .inl ⟨g2, g3, g4, g5⟩⟩
        · exact .inr ⟨h', d', g1, .inr (.inr ⟨g4, g2, g5⟩)⟩

/-- C94, the demo program after a failed save: if nothing got into the file, for instance because memory ran out in
`to_protobuf`, then the next run that loads it is undefined, whatever is typed in. -/
theorem c94_next_run {sgn : Bool} {addr : Nat → Nat} {h : Heap} (ha : Allocator addr h) {fs : Files} {argv : List Str}
    {cli : Cli} (hopts : parseOpts (fun p => (fs.read p).isSome) argv = .ok (cli, true)) (hser : fs.read cli.ser = some [])
    {stdin : List UInt8} {qs : List Str} {stuck : Bool} (hin : Asks stdin qs stuck)
    (hL : ∀ q ∈ qs, QueryFits cli.maxD q ∧ q.length + cli.maxD + 2 ≤ 2 ^ 62) :
    ∃ N, ∀ fuel, N ≤ fuel → demoMain sgn addr fuel argv stdin fs h = .error .ub := by
  have hdec : decodeMsg [] = some Msg.empty := by decide +kernel
  have hmiss : Missing Msg.empty Msg.empty.rootId := .inl (by simp [Msg.empty])
  refine c82_undefined ha hopts hser hdec hin hL (.inr ?_)
  have hfall : ∀ q, Falls cli.alg cli.maxD Msg.empty q := fun q =>
    ⟨[], _, ⟨q, 0, Nat.zero_le _, align_refl q⟩, .here, hmiss⟩
  cases stuck with
  | false => exact .inr ⟨rfl, [], _, .here, hmiss⟩
  | true =>
    obtain ⟨_, ls, last, rfl, _⟩ := hin.2.resolve_left (by simp)
    exact .inl ⟨last, by simp, hfall last⟩

/-! ### Examples -/

-- the files of the examples: `a` exists
def exDisk : Files := { read := fun p => if p = [97] then some [40, 7] else none, writable := fun p => p = [97] }

/-- The bytes of a file after saving a dictionary, and how that ended. -/
def exSave (f : Option SFault) (disk : Disk) (path : Str) : Except Err (Option (List UInt8) × SaveEnd) := do
  let (h, r) ← sortedDawg true (fun k => k + 1) 100 [[97, 200], [98, 200]] exHeap
  match r with
  | none => .error .ub
  | some d => do
      let (fs, r) ← serializeFileF true h.mem 100 f disk d.root d.size exDisk path
      return (fs.read path, r)

-- the message has 40 bytes; the disk takes 16 of them
set_option synthInstance.maxSize 1000 in
example : exSave none ⟨16, 0⟩ [97] =
    .ok (some [10, 3, 1, 2, 3, 18, 1, 3, 26, 6, 8, 1, 16, 97, 24, 2], .returned false) := by decide +kernel

-- the same if they are written when the file is closed: true
set_option synthInstance.maxSize 1000 in
example : exSave none ⟨16, 40⟩ [97] =
    .ok (some [10, 3, 1, 2, 3, 18, 1, 3, 26, 6, 8, 1, 16, 97, 24, 2], .returned true) := by decide +kernel

-- no memory for the message: the old content is lost
set_option synthInstance.maxSize 1000 in
example : exSave (some .message) ⟨1000, 40⟩ [97] = .ok (some [], .threw) := by decide +kernel

set_option synthInstance.maxSize 1000 in
example : exSave (some .path) ⟨1000, 40⟩ [97] = .ok (some [40, 7], .threw) ∧
    exSave none ⟨1000, 40⟩ [98] = .ok (none, .returned false) := by decide +kernel

/-- Loading these bytes into an empty memory: whether it throws, and the addresses in use afterwards. -/
def exLoad (fs : List LFault) : Except Err (Bool × List Nat) := do
  let (h, r) ← loadCallsF true (fun k => k + 1)
    [10, 3, 1, 2, 3, 18, 1, 3, 26, 6, 8, 1, 16, 97, 24, 2, 26, 6, 8, 1, 16, 98, 24, 2, 26, 10, 8, 2, 16, 200, 255, 255,
     255, 15, 24, 3, 32, 1, 40, 2] fs exHeap
  match r with
  | .dawg d => do
      let h ← destroyDawg 100 h d
      return (false, (List.range 30).filter fun a => (h.mem a).isSome)
  | _ => return (true, (List.range 30).filter fun a => (h.mem a).isSome)

-- three nodes, one final node, three edges: 0 + 2 + 3 + 3 nodes are lost
set_option synthInstance.maxSize 1000 in
example : exLoad [.final 0, .entry 1, .edge 2, .object] = .ok (false, [1, 2, 3, 4, 5, 6, 7, 8]) ∧
    lostAll 3 1 3 [.final 0, .entry 1, .edge 2, .object] = 8 := by decide +kernel

-- the second fault is never met, and there the caller is done
set_option synthInstance.maxSize 1000 in
example : exLoad [.node 1, .edge 3, .object] = .ok (false, [1]) ∧ lostAll 3 1 3 [.node 1, .edge 3, .object] = 1 := by
  decide +kernel

/-- The hypotheses of `c94_load` and `c94_retry` hold of a dictionary. -/
example : ∃ msg, Ends (fun fuel => toProto true exLone fuel 1 1) msg ∧ msg.nodeIds.length = 1 := by
  obtain ⟨msg, h1, _⟩ := c94_load (size := 1) exLone_dict (fun a ha => by
    cases ha with
    | refl => decide
    | step hm he _ => simp [exLone] at hm; subst hm; cases he) (by decide)
  refine ⟨msg, h1, ?_⟩
  have h2 : Ends (fun fuel => toProto true exLone fuel 1 1) { nodeIds := [1], finalIds := [1], edges := [], rootId := 1, size := 1 } := by
    refine ⟨1, fun fuel hf => ?_⟩
    obtain ⟨f, rfl⟩ : ∃ f, fuel = f + 1 := ⟨fuel - 1, by omega⟩
    simp [toProto, collectNodes, collectEdges, deref, setInsert, exLone, bind, Except.bind, pure, Except.pure]
  rw [Ends.unique h1 h2]
  rfl

end Lev.Props
