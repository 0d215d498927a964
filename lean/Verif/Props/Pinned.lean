import Verif.Proofs.Pinned
import Verif.Props.ConcBoxes
import Verif.Props.BumpBoxes
/-! # C92: a pinned box of a static pool stays where it is until its destructor has run -/
set_option autoImplicit false
namespace Verif
open ConcBoxes

section
open Bump
open Unsync.BumpBoxes (Handle)
variable {n c : Nat} {e : Bump.Env} {panics : List Byte → Bool} {m : Mem}

/-- **C92** Thread `t` has a box (which it pins), after any program of any threads. From then on the bump is not reset, as it is borrowed for `'static`, and the box is only used as a pinned one, if at all (it may have been forgotten). However long the program goes on, whatever it does:
the value is where it was, and no memory that is handed out overlaps it. -/
theorem C92_stays (he : e.Valid) (hc : c ≤ e.len) {before after : List (ConcBoxes.Event n)} (hs : ConcBoxes.SafeRun e panics (.init c m) (before ++ after)) {os : List (Obs n)} {w : ConcBoxes.World n}
    (hx : ConcBoxes.run e panics (.init c m) before = .ret (os, w)) {t : Fin n} {k : Nat} {h : Handle} (hk : (w.vars t)[k]? = some (some h)) (hb : h.hold = .boxed) (hpin : ∀ ev ∈ after, ConcBoxes.Pinned t k ev) :
    ∃ os' w', ConcBoxes.run e panics w after = .ret (os', w') ∧ (w'.vars t)[k]? = some (some h) ∧
      (∀ (u : Fin n) (j : Nat) (g : Handle), (t, k) ≠ (u, j) → (w'.vars u)[j]? = some (some g) → h.region.Disjoint g.region) ∧
      ∀ u call nd r p L, .returned u call nd r ∈ os' → r.ptr? = some p → call.layout = some L → Region.Disjoint ⟨p, L.size⟩ h.region := by
  obtain ⟨s1, s2⟩ := safe_append' hs
  obtain ⟨os1, w1, e1, -, r1⟩ := sim_run' he (rel_init hc m) s1
  rw [hx] at e1
  cases e1
  obtain ⟨os', w', e', r', j1, -, j3⟩ := ConcBoxes.pinned_run he r1 (s2 _ _ hx) hk hb hpin
  exact ⟨os', w', e', j1, fun u j g hne hg => r'.apart t u k j h g hne j1 hg, j3⟩

/-- **C92** And the value itself is not disturbed: unless its owner sets another one, its bytes are the same; and when the box is dropped at last then the destructor runs on exactly these bytes, in the thread that drops it. -/
theorem C92_value (he : e.Valid) (hc : c ≤ e.len) {before after : List (ConcBoxes.Event n)} (hs : ConcBoxes.SafeRun e panics (.init c m) (before ++ after)) {os : List (Obs n)} {w : ConcBoxes.World n}
    (hx : ConcBoxes.run e panics (.init c m) before = .ret (os, w)) {t : Fin n} {k : Nat} {h : Handle} (hk : (w.vars t)[k]? = some (some h)) (hb : h.hold = .boxed) (hpin : ∀ ev ∈ after, ConcBoxes.Pinned t k ev)
    (hset : ∀ v, .use t (.assign k v) ∉ after) :
    ∃ os' w', ConcBoxes.run e panics w after = .ret (os', w') ∧ readBytes w'.st.mem h.addr h.ty.layout.size = readBytes w.st.mem h.addr h.ty.layout.size ∧
      (w'.aborted = false → h.ty.needsDrop = true →
        ∃ a w'', ConcBoxes.exec e panics w' (.use t (.drop k)) = .ret (some (.used t (.drop k) a), w'') ∧ w''.log = w'.log ++ [(t, readBytes w.st.mem h.addr h.ty.layout.size)]) := by
  obtain ⟨s1, s2⟩ := safe_append' hs
  obtain ⟨os1, w1, e1, -, r1⟩ := sim_run' he (rel_init hc m) s1
  rw [hx] at e1
  cases e1
  obtain ⟨os', w', e', r', j1, j2, -⟩ := ConcBoxes.pinned_run he r1 (s2 _ _ hx) hk hb hpin
  have hbytes : readBytes w'.st.mem h.addr h.ty.layout.size = readBytes w.st.mem h.addr h.ty.layout.size := readBytes_congr fun x h1 h2 => j2 hset x ⟨h1, h2⟩
  refine ⟨os', w', e', hbytes, fun hab hd => ?_⟩
  simp only [ConcBoxes.exec, hab, useVar, j1]
  refine ⟨_, _, rfl, ?_⟩
  simp only [dropLog, hd, if_true, Unsync.BumpBoxes.LeakBox.ptrRead, hbytes]
end

/-- **C92** The same holds for boxes in an `unsync` bump: the box is where it was, and apart from all others, until it is dropped; unless its owner sets another value the bytes are the same, and the destructor runs on exactly these. -/
theorem C92_unsync {t : Target} {b : Unsync.MemBump} {panics : List Byte → Bool} {m : Mem} (hv : b.Valid t) (hc : b.level t m ≤ b.cap) {before after : List Unsync.BumpBoxes.Op}
    (hs : Unsync.BumpBoxes.SafeRun t b panics (.init m) (before ++ after)) {rs : List Unsync.BumpBoxes.Resp} {w : Unsync.BumpBoxes.World} (hx : Unsync.BumpBoxes.run t b panics (.init m) before = .ret (rs, w))
    {k : Nat} {h : Unsync.BumpBoxes.Handle} (hk : w.hs[k]? = some (some h)) (hb : h.hold = .boxed) (hpin : ∀ op ∈ after, Unsync.BumpBoxes.Pinned k op) :
    ∃ rs' w', Unsync.BumpBoxes.run t b panics w after = .ret (rs', w') ∧ w'.hs[k]? = some (some h) ∧
      (∀ (j : Nat) (g : Unsync.BumpBoxes.Handle), j ≠ k → w'.hs[j]? = some (some g) → h.region.Disjoint g.region) ∧
      ((∀ v, .assign k v ∉ after) → readBytes w'.mem h.addr h.ty.layout.size = readBytes w.mem h.addr h.ty.layout.size ∧
        (h.ty.needsDrop = true → ∃ r w'', Unsync.BumpBoxes.exec t b panics w' (.drop k) = .ret (r, w'') ∧ w''.log = w'.log ++ [readBytes w.mem h.addr h.ty.layout.size])) := by
  obtain ⟨s1, s2⟩ := Unsync.BumpBoxes.safe_append hs
  obtain ⟨w1, e1, r1⟩ := Unsync.BumpBoxes.sim_run hv (Unsync.BumpBoxes.wrel_init hc) s1
  rw [hx] at e1
  cases e1
  obtain ⟨rs', w', e', r', j1⟩ := Unsync.BumpBoxes.pinned_run hv r1 (s2 _ _ hx) hk hb hpin
  refine ⟨rs', w', e', j1, fun j g hj hg => r'.apart k j h g (Ne.symm hj) j1 hg, fun hset => ?_⟩
  obtain ⟨x, hxk, -, hx2, hx3⟩ := Unsync.BumpBoxes.some_of r1 hk
  obtain ⟨y, hyk, -, -, hy3⟩ := Unsync.BumpBoxes.some_of r' j1
  have hn : ∀ op ∈ after, Unsync.BumpBoxes.NotUsed k op := fun op hop =>
    have p := hpin op hop
    ⟨p.1, fun v => ⟨(p.2.1 v).1, (p.2.1 v).2, fun h => hset v (h ▸ hop)⟩, p.2.2.1, p.2.2.2.2.2.2⟩
  obtain ⟨z, hz, hz1, -⟩ := Unsync.BumpBoxes.kept_run (s := b.slab t) (panics := panics) hxk (by rw [hx2, hb]; decide) hn
  have : some (some z) = some (some y) := hz.symm.trans hyk
  cases this
  have hbytes : readBytes w'.mem h.addr h.ty.layout.size = readBytes w.mem h.addr h.ty.layout.size := by
    rw [hy3 (by rw [hb]; decide), hz1, ← hx3 (by rw [hb]; decide)]
  refine ⟨hbytes, fun hd => ?_⟩
  simp only [Unsync.BumpBoxes.exec, j1]
  refine ⟨_, _, rfl, ?_⟩
  simp only [Unsync.BumpBoxes.LeakBox.drop, hb, Unsync.BumpBoxes.LeakBox.dropInPlace, hd, if_true, Unsync.BumpBoxes.LeakBox.ptrRead, hbytes]

namespace ConcBoxes.ExC92
open Bump ConcBoxes.ExC88
open Unsync.BumpBoxes (Handle)
/-- Thread 0 makes a box and pins it. Thread 1 then makes boxes until there is no memory left, and uses them; thread 0 sees its value as it was. -/
def before : List (ConcBoxes.Event 2) := [.call 0 (.leakBox u8L [7]) true, .step 0, .step 0, .step 0, .step 0]
def after : List (ConcBoxes.Event 2) :=
  [.call 1 (.leakBox u64L big) true, .step 1, .step 1, .step 1, .step 1, .step 1, .step 1, .use 0 (.deref 0), .use 1 (.replace 0 revBig), .call 1 (.get u64L) true, .step 1, .step 1, .step 1, .step 1, .step 1, .use 1 (.drop 0), .use 1 (.boxed 1 big), .use 0 (.deref 0)]
def pool : Handle := ⟨4100, ⟨u8L, true⟩, .boxed⟩
theorem all_safe : ConcBoxes.SafeRun e panics (.init 0 m) (before ++ after) := safeB_sound (by decide +kernel)
theorem boxed : ∃ os w, ConcBoxes.run e panics (.init 0 m) before = .ret (os, w) ∧ (w.vars 0)[0]? = some (some pool) := by
  obtain ⟨os, w, h, -⟩ := C88_refines e_valid (by decide) (safe_append' all_safe).1
  refine ⟨os, w, h, ?_⟩
  have : (match ConcBoxes.run e panics (.init 0 m) before with | .ret (_, w) => (w.vars 0)[0]? | _ => none) = some (some pool) := by decide +kernel
  rw [h] at this
  exact this
theorem pinned : ∀ ev ∈ after, ConcBoxes.Pinned 0 0 ev := by
  intro ev hev
  refine ⟨by rintro rfl; revert hev; decide, ?_⟩
  rintro u rfl hu
  simp only [after, List.mem_cons, List.not_mem_nil, or_false, reduceCtorEq, false_or, ConcBoxes.Event.use.injEq] at hev
  rcases hev with ⟨-, rfl⟩ | ⟨h, -⟩ | ⟨h, -⟩ | ⟨h, -⟩ | ⟨-, rfl⟩
  · exact .inl rfl
  · cases h
  · cases h
  · cases h
  · exact .inl rfl
/-- The program of which the box is not `'static`: the box is lost (`into_raw`, the pointer is never used again), the bump is reset, and its memory is handed out again. -/
def lost : List (ConcBoxes.Event 2) := before ++ [.use 0 (.intoRaw 0), .reset, .call 1 (.leakBox u8L [9]) true, .step 1, .step 1, .step 1, .step 1]
theorem lost_safe : ConcBoxes.SafeRun e panics (.init 0 m) lost := safeB_sound (by decide +kernel)
theorem lost_result : (match ConcBoxes.run e panics (.init 0 m) lost with | .ret (os, w) => some (os, w.log) | _ => none) =
    some ([.returned 0 (.leakBox u8L [7]) true (.ptr 4100), .used 0 (.intoRaw 0) .unit, .reset, .returned 1 (.leakBox u8L [9]) true (.ptr 4100)], []) := by decide +kernel
end ConcBoxes.ExC92

/-- **C92** The bound `'static` of `into_pin` is needed: a program, permitted by all contracts, with a box that it does not borrow for `'static` and loses, after which another thread is given the same memory, without that the destructor of the value had run. -/
theorem C92_static_needed : ∃ (e : Bump.Env) (panics : List Byte → Bool) (m : Mem) (evs : List (ConcBoxes.Event 2)) (os : List (Obs 2)) (w : ConcBoxes.World 2) (L : Layout) (v v' : List Byte) (p : Nat),
    e.Valid ∧ ConcBoxes.SafeRun e panics (.init 0 m) evs ∧ ConcBoxes.run e panics (.init 0 m) evs = .ret (os, w) ∧ 0 < L.size ∧
    .returned 0 (.leakBox L v) true (.ptr p) ∈ os ∧ .returned 1 (.leakBox L v') true (.ptr p) ∈ os ∧ w.log = [] := by
  obtain ⟨os, w, h, -⟩ := C88_refines ConcBoxes.ExC88.e_valid (by decide) ConcBoxes.ExC92.lost_safe
  have hr := ConcBoxes.ExC92.lost_result
  rw [h] at hr
  simp only [Option.some.injEq, Prod.mk.injEq] at hr
  obtain ⟨rfl, hl⟩ := hr
  exact ⟨_, _, _, _, _, w, u8L, [7], [9], 4100, ConcBoxes.ExC88.e_valid, ConcBoxes.ExC92.lost_safe, h, by decide, by simp, by simp, hl⟩

end Verif
