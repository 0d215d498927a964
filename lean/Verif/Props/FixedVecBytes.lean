import Verif.Proofs.FixedVecBytes
import Verif.Props.FixedVecOps
/-! # C82: `FixedVec` on the bytes of its memory -/
namespace Verif
open FVec Uninit

namespace FVec
variable {t : Target} {T : Layout} {checks : Bool} {panics : Bits T → Bool}

theorem flat_length (xs : List (Bits T)) : (Bytes.flat xs).length = xs.length * T.size := by
  induction xs with
  | nil => simp [Bytes.flat]
  | cons x xs ih =>
    simp only [Bytes.flat, List.flatMap_cons, List.length_append, List.length_cons, x.2] at ih ⊢
    rw [ih, Nat.add_mul]
    omega

theorem readBytes_append (m : Mem) (p a b : Nat) : readBytes m p (a + b) = readBytes m p a ++ readBytes m (p + a) b := by
  rw [← List.take_append_drop a (readBytes m p (a + b))]
  congr 1
  · have := readBytes_sub m p (a + b) 0 a (by omega)
    simpa using this
  · have := readBytes_sub m p (a + b) a b (by omega)
    rw [← this, List.take_of_length_le]
    simp

theorem holds_flat {h : Heap (Bits T)} {b : BHeap T} {R : Region} {m0 : Mem} (s : Sound R m0 h b) {p : Nat} {xs : List (Bits T)} (hh : Holds T h.mem p xs) :
    readBytes b.mem p (xs.length * T.size) = Bytes.flat xs := by
  induction xs generalizing p with
  | nil => simp [Bytes.flat, readBytes]
  | cons x xs ih =>
    rw [holds_cons] at hh
    rw [List.length_cons, Nat.add_mul, Nat.one_mul, Nat.add_comm, readBytes_append, ih hh.2]
    have := congrArg Subtype.val (s.mem _ _ hh.1)
    rw [bytesRead_val] at this
    rw [this]
    simp [Bytes.flat]

/-- **C82** Every history of calls that safe code can make, from any contents of the memory, has exactly the answers and runs exactly the destructors which the specification by lists (as in C44) has. Afterwards the bytes of every vector, from its
address on, are those of its elements one after the other. -/
theorem C82_refines (hT : T.ValidType t) {mem : Mem} {ops : List (Op (Bits T))} (hs : Bytes.SafeRun t checks panics (Bytes.init mem) ops) :
    ∃ w, Bytes.run t checks panics (Bytes.init mem) ops = .ret ((srun t T panics SWorld.init ops).1, w) ∧
      w.heap.log = (srun t T panics SWorld.init ops).2.dropped ∧
      ∀ i e, w.ents i = some e → ∃ se, (srun t T panics SWorld.init ops).2.vecs i = some se ∧ e.vec.length = se.items.length ∧
        readBytes w.heap.mem e.vec.uninit.addr (se.items.length * T.size) = Bytes.flat se.items := by
  rw [bytes_safe_iff hT (wrel_init _) (brel_init mem ⟨0, 0⟩)] at hs
  obtain ⟨w, bw, h1, h2, h3⟩ := bytes_run hT (wrel_init _) (brel_init mem ⟨0, 0⟩) hs
  refine ⟨bw, h1, by rw [h3.heap.log, h2.log], fun i e he => ?_⟩
  rw [h3.ents] at he
  obtain ⟨se, k1, k2⟩ := h2.get he
  exact ⟨se, k1, k2.len, holds_flat h3.heap k2.items⟩

/-- **C82** What is in the memory before does not matter: a history that safe code can make from some contents, it can make from any other, with the same answers and the same destructors. -/
theorem C82_contents_irrelevant (hT : T.ValidType t) {mem : Mem} (mem' : Mem) {ops : List (Op (Bits T))} (hs : Bytes.SafeRun t checks panics (Bytes.init mem) ops) :
    Bytes.SafeRun t checks panics (Bytes.init mem') ops ∧
    ∃ rs w w', Bytes.run t checks panics (Bytes.init mem) ops = .ret (rs, w) ∧ Bytes.run t checks panics (Bytes.init mem') ops = .ret (rs, w') ∧ w.heap.log = w'.heap.log := by
  have hs' : Bytes.SafeRun t checks panics (Bytes.init mem') ops := by
    rw [bytes_safe_iff hT (wrel_init _) (brel_init mem ⟨0, 0⟩)] at hs
    rw [bytes_safe_iff hT (wrel_init _) (brel_init mem' ⟨0, 0⟩)]
    exact hs
  obtain ⟨w, e, h, -⟩ := C82_refines hT hs
  obtain ⟨w', e', h', -⟩ := C82_refines hT hs'
  exact ⟨hs', _, w, w', e, e', by rw [h, h']⟩

/-- **C82** All histories: every byte outside of the memory given to `new` has the value it had before. -/
theorem C82_other_bytes_kept (hT : T.ValidType t) {mem : Mem} {ops : List (Op (Bits T))} {rs : List (Resp (Bits T))} {w : BWorld T} (hs : Bytes.SafeRun t checks panics (Bytes.init mem) ops)
    (hx : Bytes.run t checks panics (Bytes.init mem) ops = .ret (rs, w)) {y : Nat} (hout : ∀ addr len, Op.new addr len ∈ ops → ¬ Region.Has ⟨addr, len⟩ y) : w.heap.mem y = mem y := by
  rw [bytes_safe_iff hT (wrel_init _) (brel_init mem ⟨0, 0⟩)] at hs
  exact bytes_frame_run hT (wrel_init _) (brel_init mem ⟨0, 0⟩) hs hx hout (fun j e h => by cases h)

/-- **C82** One more call on a vector after such a history: every byte outside of the memory of this vector is kept. -/
theorem C82_call_keeps_other_bytes (hT : T.ValidType t) {mem : Mem} {ops : List (Op (Bits T))} {rs : List (Resp (Bits T))} {w : BWorld T} (hs : Bytes.SafeRun t checks panics (Bytes.init mem) ops)
    (hx : Bytes.run t checks panics (Bytes.init mem) ops = .ret (rs, w)) {op : Op (Bits T)} (hp : Bytes.Permitted t w op) (hN : NoWrap t checks op) {i : Nat} {e : Entry} (ht : op.target = some i)
    (he : w.ents i = some e) :
    ∃ a w', Bytes.exec t checks panics w op = .ret (a, w') ∧ ∀ y, ¬ e.region.Has y → w'.heap.mem y = w.heap.mem y := by
  rw [bytes_safe_iff hT (wrel_init _) (brel_init mem ⟨0, 0⟩)] at hs
  obtain ⟨w0, bw, h1, h2, h3⟩ := bytes_run hT (wrel_init _) (brel_init mem ⟨0, 0⟩) hs
  rw [hx] at h1
  cases h1
  obtain ⟨w1, bw1, _, _, e2, f1, _⟩ := step_both (checks := checks) (panics := panics) hT h2 h3 ((bytes_permitted h3).mp hp) hN
  exact ⟨_, bw1, e2, (f1 i e ht (by rw [← h3.ents]; exact he)).heap.only⟩

/-! The demo history of `Props/FixedVecOps`, with numbers of 4 bytes (little endian); the destructor of 13 panics. -/

def bits (n : Nat) : Bits ⟨4, 4⟩ := ⟨[UInt8.ofNat n, 0, 0, 0], rfl⟩
def bitsPanics : Bits ⟨4, 4⟩ → Bool := fun v => v = bits 13
def bitsOps : List (Op (Bits ⟨4, 4⟩)) :=
  [.new 4096 34, .push 0 (bits 1), .push 0 (bits 2), .fill 0 ⟨fun k => .item (bits (k + 10)), 1⟩, .push 0 (bits 9), .drain 0 (.included 1) (.excluded 4), .nextBack 0, .dropDrain 0,
   .splitBorrowed 0 3, .push 1 (bits 5), .slice 1, .drop 1, .push 0 (bits 6), .slice 0]
def bitsResps : List (Resp (Bits ⟨4, 4⟩)) :=
  [.num 0, .pushed (.ok ()), .pushed (.ok ()), .num 6, .pushed (.error (bits 9)), .unit, .opt (some (bits 12)), .unit,
   .num 1, .pushed (.ok ()), .vals [bits 15, bits 16, bits 5], .unit, .pushed (.ok ()), .vals [bits 1, bits 13, bits 14, bits 6]]

example : Bytes.SafeRun .w64 true bitsPanics (Bytes.init fun _ => 7) bitsOps := by
  rw [bytes_safe_iff (T := ⟨4, 4⟩) u32_valid (wrel_init _) (brel_init _ ⟨0, 0⟩)]
  exact safeB_sound u32_valid bits_subsingleton (wrel_init _) (by decide +kernel)

/-- The answers, the destructors (2 and 11 by the drain, then the vector split off), and the bytes from 3 bytes before the memory to the end: the four elements, what is left of moved and dropped ones, bytes that are not used. -/
example : (match Bytes.run .w64 true bitsPanics (Bytes.init fun _ => 7) bitsOps with
    | .ret (rs, w) => some (rs, w.heap.log, readBytes w.heap.mem 4093 41)
    | _ => none) = some (bitsResps, [bits 2, bits 11, bits 15, bits 16, bits 5],
      [7, 7, 7, 1, 0, 0, 0, 13, 0, 0, 0, 14, 0, 0, 0, 6, 0, 0, 0, 16, 0, 0, 0, 5, 0, 0, 0, 15, 0, 0, 0, 16, 0, 0, 0, 7, 7, 7, 7, 7, 7]) := by decide +kernel

end FVec
end Verif
