import Verif.Props.MemoryModel
/-!
# Concrete cases for C90

The schedule of `exSched`, in which one thread takes 1 byte, the `compare_exchange` of the other one fails, and it takes 8 bytes then; as a graph in which nothing is ordered but the actions of each thread. And graphs that are not possible.
-/
set_option autoImplicit false
namespace Verif.CasesMM
open Verif Bump MM

theorem eff : Effective exEnv (init 2 0 fun _ => 0) exSched :=
  ⟨⟨by decide, exSched_valid (.invoke 0 (.leak u8L [7])) (by simp [exSched])⟩, ⟨by decide, exSched_valid (.invoke 1 (.get u64L)) (by simp [exSched])⟩,
    by decide, by decide, by decide, by decide, by decide, by decide, by decide, by decide, by decide, trivial⟩

/-- The actions of the two threads. -/
def acts0 : List Act := [.invoke (.leak u8L [7]), .compute, .cas 0 1 0, .write ⟨4100, 1⟩, .ret (.leak u8L [7]) (.ptr 4100)]
def acts1 : List Act := [.invoke (.get u64L), .compute, .cas 0 12 1, .compute, .cas 1 12 1, .ret (.get u64L) (.allocation ⟨4104, 12⟩)]
theorem trace0 : traceOf exEnv 0 (init 2 0 fun _ => 0) exSched = acts0 := by decide +kernel
theorem trace1 : traceOf exEnv 1 (init 2 0 fun _ => 0) exSched = acts1 := by decide +kernel

/-- Program order, and nothing else. -/
theorem graph : ∃ X : Graph 2 Act, (∀ a b, X.hb a b → a.1 = b.1) ∧ X.initial = 0 ∧ X.acts 0 = acts0 ∧ X.acts 1 = acts1 ∧ X.SeqCst actKind ∧ X.Coherent actKind ∧ Possible X ∧ Executes exEnv X := by
  obtain ⟨ord, h0, h⟩ := C90_complete eff
  obtain ⟨X, h1, h2, h3, h4, h5, h6, h7, -, -⟩ := h (fun a b => a.1 = b.1 ∧ a.2 < b.2 ∧ b.2 < (traceOf exEnv b.1 (init 2 0 fun _ => 0) exSched).length)
    (fun t j k hj hk => ⟨rfl, hj, hk⟩) (fun a b c h1 h2 => ⟨h1.1.trans h2.1, Nat.lt_trans h1.2.1 h2.2.1, h2.2.2⟩)
    (fun a b h => by
      obtain ⟨t, j⟩ := a
      obtain ⟨u, k⟩ := b
      obtain ⟨rfl, h1, h2⟩ : t = u ∧ j < k ∧ _ := h
      exact h0 t j k h1 h2)
  exact ⟨X, fun a b h => by rw [h1] at h; exact h.1, h2, (h3 0).trans trace0, (h3 1).trans trace1, h5, h6, ⟨h4, .inl h5⟩, h7⟩

/-- The memory of the two calls does not overlap, although the calls are not ordered. -/
example : Region.Disjoint ⟨4100, 1⟩ ⟨4104, 8⟩ := by
  obtain ⟨X, -, h1, h2, h3, -, -, h4, h5⟩ := graph
  exact (C90_disjoint (a := (0, 4)) (b := (1, 5)) exEnv_valid (by rw [h1]; decide) h4 h5 (by rw [Graph.At, h2]; rfl) (p := ⟨4100, 1⟩) (by decide) (by rw [Graph.At, h3]; rfl) (q := ⟨4104, 8⟩) (by decide)).2 (by decide)

/-- Neither does the write of the value by the one thread interfere with what the other one has. -/
example : Region.Disjoint ⟨4100, 1⟩ ⟨4104, 8⟩ := by
  obtain ⟨X, -, h1, h2, h3, -, -, h4, h5⟩ := graph
  exact (C90_no_race (a := (0, 3)) (b := (1, 5)) exEnv_valid (by rw [h1]; decide) h4 h5 (by rw [Graph.At, h2]; rfl)).2 (.get u64L) (.allocation ⟨4104, 12⟩) (by rw [Graph.At, h3]; rfl) (by decide) (by simp [ReturnsWritten])

/-- The write of the value happens before the return, and what is after that. -/
example (X : Graph 2 Act) (h1 : X.initial = 0) (h2 : X.acts 0 = acts0) (h4 : Possible X) (h5 : Executes exEnv X) (c : MM.Ev 2) (hc : X.hb (0, 4) c) : X.hb (0, 3) c :=
  C90_ordered (a := (0, 3)) (b := (0, 4)) exEnv_valid (by rw [h1]; decide) h4 h5 (by rw [Graph.At, h2]; rfl) (by rw [Graph.At, h2]; rfl) (q := ⟨4100, 1⟩) (by decide) (by rw [Region.disjoint_iff]; decide) hc

/-- Some interleaving explains it, and it is linearizable. -/
example : ∃ X : Graph 2 Act, ∃ ord, X.Order ord ∧ X.acts 0 = acts0 ∧ ∀ t, traceOf exEnv t (init 2 0 fun _ => 0) (ord.map (schedule X)) = X.acts t := by
  obtain ⟨X, -, h1, h2, h3, -, -, h4, h5⟩ := graph
  obtain ⟨ord, h6, h7⟩ := C90_interleaving h4 h5 fun _ => 0
  rw [h1] at h7
  exact ⟨X, ord, h6, h2, h7⟩
example : ∃ X : Graph 2 Act, ∃ ord, X.Order ord ∧ X.acts 0 = acts0 ∧ Lin.Linearizable (specApply exEnv.zst exEnv.slab) 0 (ord.filterMap (obsAt X)) := by
  obtain ⟨X, -, h1, h2, h3, -, -, h4, h5⟩ := graph
  obtain ⟨ord, h6, h7⟩ := C90_linearizable exEnv_valid (by rw [h1]; decide) h4 h5
  rw [h1] at h7
  exact ⟨X, ord, h6, h2, h7⟩

/-- The code of a thread by itself could also find the level 0 with the second `compare_exchange`, take the same bytes, and return. -/
def stolen : List Act := [.invoke (.get u8L), .compute, .cas 0 1 0, .ret (.get u8L) (.allocation ⟨4100, 1⟩)]
example : lrun exEnv .idle acts0 = some .idle ∧ lrun exEnv .idle stolen = some .idle := by decide +kernel
/-- But both threads doing so is not possible in the memory model. -/
example (X : Graph 2 Act) (h0 : X.acts 0 = acts0) (h1 : X.acts 1 = stolen) (hi : X.initial = 0) (hp : Possible X) (hx : Executes exEnv X) : False := by
  have := (C90_disjoint (a := (0, 4)) (b := (1, 3)) exEnv_valid (by rw [hi]; decide) hp hx (by rw [Graph.At, h0]; rfl) (p := ⟨4100, 1⟩) (by decide) (by rw [Graph.At, h1]; rfl) (q := ⟨4100, 1⟩) (by decide)).2 (by decide)
  rw [Region.disjoint_iff] at this
  revert this
  decide

end Verif.CasesMM
