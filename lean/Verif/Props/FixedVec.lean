import Mathlib.Data.List.Basic
import Verif.Proofs.FixedVecShow
/-! # C44–C50: `FixedVec` -/
namespace Verif
open FVec Uninit

namespace FVec
variable {V : Type} {t : Target} {T : Layout} {checks : Bool} {panics : V → Bool}

/-! ## C44 -/

/-- **C44** Every history of calls by safe code, on any number of vectors, of any element type (if it is zero-sized then it has only one value), in memory of any contents, gets exactly the answers that bounded lists give. In
particular nothing is undefined. -/
theorem C44_refines_list (hT : T.ValidType t) (hz : T.size = 0 → Subsingleton V) (mem : Nat → Option V) {ops : List (Op V)} (hs : SafeRun t T checks panics (World.init mem) ops) :
    ∃ w', run t T checks panics (World.init mem) ops = .ret ((srun t T panics SWorld.init ops).1, w') := by
  obtain ⟨w', h, _⟩ := sim_run hT hz (wrel_init mem) hs
  exact ⟨w', h⟩

/-- **C44** Of every vector at any time that is not borrowed mutably one can read elements, their number is the length, and at most the capacity. -/
theorem C44_readable (hT : T.ValidType t) (hz : T.size = 0 → Subsingleton V) {w : World V} (h : Reach t T checks panics w) {i : Nat} (hp : Permitted t T w (.slice i)) :
    ∃ xs c, Shows t T checks panics w i xs ∧ ShowsLen t T checks panics w i xs.length ∧ ShowsCap t T checks panics w i c ∧ xs.length ≤ c := by
  obtain ⟨sw, se, r, hs, hd, hle, _⟩ := step_of hT hz h (i := i) (op := .slice i) rfl (by simp [Op.OnDrain]) hp trivial
  exact ⟨se.items, se.cap, (shows_iff r).mpr ⟨se, hs, hd, rfl⟩, showsLen_of r hs hd, (showsCap_iff r).mpr ⟨se, hs, hd, rfl⟩, hle⟩

/-- **C44** `push` fails exactly if the length is the capacity, and then gives the value back and leaves the elements as they were; otherwise it appends. -/
theorem C44_push (hT : T.ValidType t) (hz : T.size = 0 → Subsingleton V) {w : World V} (h : Reach t T checks panics w) {i : Nat} {v : V} (hp : Permitted t T w (.push i v))
    {xs : List V} {c : Nat} (hx : Shows t T checks panics w i xs) (hc : ShowsCap t T checks panics w i c) :
    ∃ r w', exec t T checks panics w (.push i v) = .ret (.pushed r, w') ∧
      ((r = .error v ∧ xs.length = c ∧ Shows t T checks panics w' i xs) ∨ (r = .ok () ∧ xs.length < c ∧ Shows t T checks panics w' i (xs ++ [v]))) ∧
      ShowsCap t T checks panics w' i c ∧ OthersKept t T checks panics w w' i := by
  obtain ⟨sw, se, r, hs, hd, hle, w', e, r'⟩ := step_of hT hz h (i := i) (op := .push i v) rfl (by simp [Op.OnDrain]) hp trivial
  rw [shows_iff r] at hx
  rw [showsCap_iff r] at hc
  obtain ⟨se1, a1, a2, a3⟩ := hx
  obtain ⟨se2, b1, b2, b3⟩ := hc
  rw [hs] at a1 b1
  cases a1; cases b1
  subst a3; subst b3
  simp only [sexecVec] at e r'
  split at e
  · rename_i hlt
    rw [if_pos hlt] at r'
    refine ⟨_, w', e, .inr ⟨rfl, hlt, (shows_iff r').mpr ⟨_, if_pos rfl, hd, rfl⟩⟩, (showsCap_iff r').mpr ⟨_, if_pos rfl, hd, rfl⟩,
      othersKept_of r r' fun j sj hj h => by simp only [SWorld.set, if_neg hj, h]⟩
  · rename_i hlt
    rw [if_neg hlt] at r'
    exact ⟨_, w', e, .inl ⟨rfl, by omega, (shows_iff r').mpr ⟨se, hs, hd, rfl⟩⟩, (showsCap_iff r').mpr ⟨se, hs, hd, rfl⟩, othersKept_of r r' fun j sj hj h => h⟩

/-- **C44** `pop` gives and removes the last element. -/
theorem C44_pop (hT : T.ValidType t) (hz : T.size = 0 → Subsingleton V) {w : World V} (h : Reach t T checks panics w) {i : Nat} (hp : Permitted t T w (.pop i))
    {xs : List V} (hx : Shows t T checks panics w i xs) :
    ∃ w', exec t T checks panics w (.pop i) = .ret (.opt xs.getLast?, w') ∧ Shows t T checks panics w' i xs.dropLast ∧ OthersKept t T checks panics w w' i := by
  obtain ⟨sw, se, r, hs, hd, hle, w', e, r'⟩ := step_of hT hz h (i := i) (op := .pop i) rfl (by simp [Op.OnDrain]) hp trivial
  rw [shows_iff r] at hx
  obtain ⟨se1, a1, a2, a3⟩ := hx
  rw [hs] at a1
  cases a1
  subst a3
  exact ⟨w', e, (shows_iff r').mpr ⟨_, if_pos rfl, hd, rfl⟩, othersKept_of r r' fun j sj hj h => by simp only [sexecVec, SWorld.set, if_neg hj, h]⟩

/-- **C44** `set_len`, after the user has written values `vs` behind the elements (they fit): the vector contains the first `n` of the elements and values, its capacity is the same, nothing is dropped, and the other vectors
keep their elements. -/
theorem C44_set_len (hT : T.ValidType t) (hz : T.size = 0 → Subsingleton V) {w : World V} (h : Reach t T checks panics w) {i n : Nat} {vs : List V} (hp : Permitted t T w (.setLen i vs n))
    {xs : List V} {c : Nat} (hx : Shows t T checks panics w i xs) (hc : ShowsCap t T checks panics w i c) :
    ∃ w', exec t T checks panics w (.setLen i vs n) = .ret (.unit, w') ∧ Shows t T checks panics w' i ((xs ++ vs).take n) ∧ ShowsLen t T checks panics w' i n ∧ ShowsCap t T checks panics w' i c ∧
      w'.heap.log = w.heap.log ∧ OthersKept t T checks panics w w' i := by
  have hn : n ≤ xs.length + vs.length := by
    obtain ⟨e, he, _, hd, _, hn⟩ := hp
    obtain ⟨sw, r⟩ := reach_rel hT hz h
    rw [shows_iff r] at hx
    obtain ⟨se, a1, a2, a3⟩ := hx
    obtain ⟨se', hs, hr⟩ := r.get he
    rw [hs] at a1
    cases a1
    rw [FixedVec.len, hr.len, a3] at hn
    exact hn
  obtain ⟨sw, se, r, hs, hd, hle, w', e, r'⟩ := step_of hT hz h (i := i) (op := .setLen i vs n) rfl (by simp [Op.OnDrain]) hp trivial
  rw [shows_iff r] at hx
  rw [showsCap_iff r] at hc
  obtain ⟨se1, a1, a2, a3⟩ := hx
  obtain ⟨se2, b1, b2, b3⟩ := hc
  rw [hs] at a1 b1
  cases a1; cases b1
  subst a3; subst b3
  have hl := showsLen_of (checks := checks) (panics := panics) r' (i := i) (if_pos rfl) hd
  rw [show ((se.items ++ vs).take n).length = n by rw [List.length_take, List.length_append]; omega] at hl
  exact ⟨w', e, (shows_iff r').mpr ⟨_, if_pos rfl, hd, rfl⟩, hl, (showsCap_iff r').mpr ⟨_, if_pos rfl, hd, rfl⟩, by rw [r'.log, r.log]; rfl,
    othersKept_of r r' fun j sj hj h => by simp only [sexecVec, SWorld.set, if_neg hj, h]⟩

/-- **C44** Indexing gives the element, and panics exactly if the index is not below the length. -/
theorem C44_index (hT : T.ValidType t) (hz : T.size = 0 → Subsingleton V) {w : World V} (h : Reach t T checks panics w) {i k : Nat} (hp : Permitted t T w (.index i k))
    {xs : List V} (hx : Shows t T checks panics w i xs) :
    ∃ r w', exec t T checks panics w (.index i k) = .ret (r, w') ∧ r = (match xs[k]? with | some v => .val v | none => .panic) ∧ Shows t T checks panics w' i xs := by
  obtain ⟨sw, se, r, hs, hd, hle, w', e, r'⟩ := step_of hT hz h (i := i) (op := .index i k) rfl (by simp [Op.OnDrain]) hp trivial
  rw [shows_iff r] at hx
  obtain ⟨se1, a1, a2, a3⟩ := hx
  rw [hs] at a1
  cases a1
  subst a3
  simp only [sexecVec] at e r'
  refine ⟨_, w', e, ?_, ?_⟩
  · cases se.items[k]? <;> rfl
  · cases hk : se.items[k]? <;> rw [hk] at r' <;> exact (shows_iff r').mpr ⟨se, hs, hd, rfl⟩

/-! ## C45 -/

section
variable [DecidableEq V]

/-- What came in is handed out, dropped, in the vectors or leaked, each counted once. -/
theorem conserved (hT : T.ValidType t) (hz : T.size = 0 → Subsingleton V) (mem : Nat → Option V) {ops : List (Op V)} (hs : SafeRun t T checks panics (World.init mem) ops)
    {rs : List (Resp V)} {w' : World V} (he : run t T checks panics (World.init mem) ops = .ret (rs, w')) :
    rs = (srun t T panics SWorld.init ops).1 ∧ WRel t T w' (srun t T panics SWorld.init ops).2 ∧
    (inputsOf ops rs).Perm (outputsOf ops rs ++ w'.heap.log ++ (srun t T panics SWorld.init ops).2.live ++ (srun t T panics SWorld.init ops).2.leaked) := by
  obtain ⟨w1, e, r⟩ := sim_run hT hz (wrel_init mem) hs
  rw [he] at e
  cases e
  have htr := run_trace (checks := checks) (panics := panics) hT hz (wrel_init mem) hs
  have hc := conserve_run (t := t) (T := T) (panics := panics) conserve_init ops
  refine ⟨rfl, r, ?_⟩
  rw [List.perm_iff_count]
  intro v
  have := hc.count v
  rw [htr.1, htr.2, ← r.log] at this
  simp only [SWorld.init, List.nil_append, List.count_append] at this ⊢
  omega

omit [DecidableEq V] in
theorem live_nil {w : World V} {sw : SWorld V} (r : WRel t T w sw) (h : ∀ i, w.ents i = none) : sw.live = [] := by
  simp only [SWorld.live, List.flatMap_eq_nil_iff]
  intro i _
  have := r.ents i
  rw [h i] at this
  cases hs : sw.vecs i with
  | none => rfl
  | some _ => rw [hs] at this; exact this.elim

/-- **C45** No destructor panics and the user forgets nothing: when all vectors are gone, the elements moved in (by `push`, `fill`, `extend`, replacing an element) are exactly those handed out (by `pop`, draining, replacing, refused
by `push`) and those dropped. So each is handed out or dropped, once, none is lost; if they are all different no destructor runs twice. -/
theorem C45_exactly_once (hT : T.ValidType t) (hz : T.size = 0 → Subsingleton V) (mem : Nat → Option V) (hpk : ∀ v, panics v = false) {ops : List (Op V)} (hf : ∀ op ∈ ops, op.NoForget)
    (hs : SafeRun t T checks panics (World.init mem) ops) {rs : List (Resp V)} {w' : World V} (he : run t T checks panics (World.init mem) ops = .ret (rs, w')) (hg : ∀ i, w'.ents i = none) :
    (inputsOf ops rs).Perm (outputsOf ops rs ++ w'.heap.log) := by
  obtain ⟨_, r, h⟩ := conserved hT hz mem hs he
  rw [live_nil r hg, run_leaked hpk _ _ hf] at h
  simpa [SWorld.init] using h

/-- **C45** In particular with pairwise different elements. -/
theorem C45_no_double (hT : T.ValidType t) (hz : T.size = 0 → Subsingleton V) (mem : Nat → Option V) {ops : List (Op V)}
    (hs : SafeRun t T checks panics (World.init mem) ops) {rs : List (Resp V)} {w' : World V} (he : run t T checks panics (World.init mem) ops = .ret (rs, w')) (hd : (inputsOf ops rs).Nodup) :
    (outputsOf ops rs ++ w'.heap.log).Nodup ∧ ∀ i xs, Shows t T checks panics w' i xs → xs.Nodup ∧ ∀ x ∈ xs, x ∉ outputsOf ops rs ++ w'.heap.log := by
  obtain ⟨_, r, h⟩ := conserved hT hz mem hs he
  have hn := h.nodup_iff.mp hd
  rw [List.append_assoc, List.append_assoc, ← List.append_assoc, List.nodup_append] at hn
  refine ⟨hn.1, fun i xs hx => ?_⟩
  rw [shows_iff r] at hx
  obtain ⟨se, h1, h2, rfl⟩ := hx
  have hb : i < (srun t T panics SWorld.init ops).2.next := by
    have hi := r.ents i
    cases hw : w'.ents i with
    | none => rw [hw, h1] at hi; exact hi.elim
    | some e => rw [← r.next]; exact (r.bound _ _ hw).1
  have hsub : se.items.Sublist (srun t T panics SWorld.init ops).2.live := by
    have : (match (srun t T panics SWorld.init ops).2.vecs i with | none => [] | some e => e.contents) = se.items := by rw [h1]; simp [contents_none h2]
    rw [← this]
    exact List.sublist_flatten_of_mem (List.mem_map.mpr ⟨i, List.mem_range.mpr hb, rfl⟩)
  have hn2 := hn.2.1
  rw [List.nodup_append] at hn2
  refine ⟨hn2.1.sublist hsub, fun x hxm hout => ?_⟩
  exact hn.2.2 x hout x (by simp [hsub.subset hxm]) rfl

/-! ## C46 -/

/-- **C46** For all histories, whichever destructors panic (also if that aborts the process): a value is handed out or dropped at most as often as it was moved in. -/
theorem C46_never_twice (hT : T.ValidType t) (hz : T.size = 0 → Subsingleton V) (mem : Nat → Option V) {ops : List (Op V)} (hs : SafeRun t T checks panics (World.init mem) ops)
    {rs : List (Resp V)} {w' : World V} (he : run t T checks panics (World.init mem) ops = .ret (rs, w')) (v : V) :
    (outputsOf ops rs).count v + w'.heap.log.count v ≤ (inputsOf ops rs).count v := by
  obtain ⟨_, r, h⟩ := conserved hT hz mem hs he
  rw [h.count_eq]
  simp only [List.count_append]
  omega
end

theorem dropUntil_spec (panics : V → Bool) (xs : List V) : ∃ k, k ≤ xs.length ∧ (dropUntil panics xs).1 = xs.take k ∧
    ((dropUntil panics xs).2 = true ↔ ∃ x ∈ xs, panics x = true) ∧ ((dropUntil panics xs).2 = false → k = xs.length) ∧
    ((dropUntil panics xs).2 = true → ∃ x, xs[k - 1]? = some x ∧ 0 < k ∧ panics x = true ∧ ∀ y ∈ xs.take (k - 1), panics y = false) := by
  induction xs with
  | nil => exact ⟨0, by simp [dropUntil]⟩
  | cons x xs ih =>
    obtain ⟨k, h1, h2, h3, h4, h5⟩ := ih
    simp only [dropUntil]
    by_cases hp : panics x = true
    · refine ⟨1, by simp, by simp [hp], by simp [hp], by simp [hp], fun _ => ⟨x, by simp, by simp, hp, by simp⟩⟩
    · refine ⟨k + 1, by simpa using h1, by simp [hp, h2], by simp [hp, h3], by simpa [hp] using h4, fun h => ?_⟩
      simp only [hp, if_false, Bool.false_eq_true] at h
      obtain ⟨y, a1, a2, a3, a4⟩ := h5 h
      obtain ⟨k, rfl⟩ : ∃ k', k = k' + 1 := ⟨k - 1, by omega⟩
      refine ⟨y, ?_, by omega, a3, fun z hz => ?_⟩
      · simpa using a1
      · simp only [Nat.add_sub_cancel, List.take_succ_cons, List.mem_cons] at hz a4
        rcases hz with rfl | hz
        · simpa using hp
        · exact a4 z hz

theorem truncate_shape (xs : List V) (n k : Nat) (hk : k ≤ (xs.drop n).length) : (xs.drop n).reverse.take k = (xs.drop (xs.length - k)).reverse := by
  rw [List.take_reverse, List.drop_drop]
  simp only [List.length_drop] at hk ⊢
  by_cases hn : n ≤ xs.length
  · congr 2
    omega
  · rw [List.drop_eq_nil_of_le (by omega), List.drop_eq_nil_of_le (by omega)]

theorem truncate_core (hT : T.ValidType t) (hz : T.size = 0 → Subsingleton V) {w : World V} (h : Reach t T checks panics w) {i n : Nat} {op : Op V} (ho : op = .truncate i n ∨ (op = .clear i ∧ n = 0))
    (hp : Permitted t T w op) {xs : List V} (hx : Shows t T checks panics w i xs) :
    ∃ r w' m, exec t T checks panics w op = .ret (r, w') ∧ (n ≤ xs.length → n ≤ m) ∧ m ≤ xs.length ∧
      Shows t T checks panics w' i (xs.take m) ∧ w'.heap.log = w.heap.log ++ (xs.drop m).reverse ∧ OthersKept t T checks panics w w' i ∧
      ((∀ x ∈ xs.drop n, panics x = false) → r = .unit ∧ m = min n xs.length) ∧
      ((∃ x ∈ xs.drop n, panics x = true) → r = .panic ∧ ∃ x, xs[m]? = some x ∧ panics x = true ∧ ∀ y ∈ xs.drop (m + 1), panics y = false) := by
  have main : ∀ (sw : SWorld V) se w' , WRel t T w sw → sw.vecs i = some se → se.drain = none → se.items = xs →
      ∀ op : Op V, sexecVec t T panics sw i se op = sexecVec t T panics sw i se (.truncate i n) →
      exec t T checks panics w op = .ret ((sexecVec t T panics sw i se op).1, w') → WRel t T w' (sexecVec t T panics sw i se op).2 →
      ∃ r w' m, exec t T checks panics w op = .ret (r, w') ∧ (n ≤ xs.length → n ≤ m) ∧ m ≤ xs.length ∧
      Shows t T checks panics w' i (xs.take m) ∧ w'.heap.log = w.heap.log ++ (xs.drop m).reverse ∧ OthersKept t T checks panics w w' i ∧
      ((∀ x ∈ xs.drop n, panics x = false) → r = .unit ∧ m = min n xs.length) ∧
      ((∃ x ∈ xs.drop n, panics x = true) → r = .panic ∧ ∃ x, xs[m]? = some x ∧ panics x = true ∧ ∀ y ∈ xs.drop (m + 1), panics y = false) := by
    intro sw se w' r hs hd hi op heq e r'
    subst hi
    rw [heq] at e r'
    simp only [sexecVec] at e r'
    obtain ⟨k, h1, h2, h3, h4, h5⟩ := dropUntil_spec panics (se.items.drop n).reverse
    simp only [List.length_reverse] at h1
    have hl : (dropUntil panics (List.drop n se.items).reverse).1.length = k := by rw [h2, List.length_take, List.length_reverse]; omega
    have hlog := r'.log
    simp only at hlog
    have h1' := h1
    simp only [List.length_drop] at h1'
    refine ⟨_, w', se.items.length - k, e, ?_, by omega, (shows_iff r').mpr ⟨_, if_pos rfl, hd, by rw [hl]⟩, ?_, othersKept_of r r' fun j sj hj h => by simp only [SWorld.set, if_neg hj, h], ?_, ?_⟩
    · omega
    · rw [hlog, ← r.log, h2, truncate_shape _ _ _ h1]
    · intro hall
      have : (dropUntil panics (List.drop n se.items).reverse).2 = false := by
        rw [Bool.eq_false_iff]
        intro ht
        obtain ⟨x, hx, hpx⟩ := h3.mp ht
        rw [hall x (by simpa using hx)] at hpx
        cases hpx
      refine ⟨by rw [this]; rfl, ?_⟩
      have := h4 this
      simp only [List.length_reverse, List.length_drop] at this
      omega
    · rintro ⟨x, hx, hpx⟩
      have ht := h3.mpr ⟨x, by simpa using hx, hpx⟩
      refine ⟨by rw [ht]; rfl, ?_⟩
      obtain ⟨y, a1, a2, a3, a4⟩ := h5 ht
      refine ⟨y, ?_, a3, fun z hz => a4 z ?_⟩
      · rw [List.getElem?_reverse (by simp only [List.length_drop]; omega), List.getElem?_drop, List.length_drop] at a1
        rw [← a1]
        congr 1
        omega
      · rw [truncate_shape _ _ _ (by simp only [List.length_drop]; omega), List.mem_reverse, show se.items.length - (k - 1) = se.items.length - k + 1 by omega]
        exact hz
  rcases ho with rfl | ⟨rfl, rfl⟩
  · obtain ⟨sw, se, r, hs, hd, hle, w', e, r'⟩ := step_of hT hz h (i := i) (op := .truncate i n) rfl (by simp [Op.OnDrain]) hp trivial
    obtain ⟨se1, a1, a2, a3⟩ := (shows_iff r).mp hx
    rw [hs] at a1
    cases a1
    exact main sw se w' r hs hd a3 _ rfl e r'
  · obtain ⟨sw, se, r, hs, hd, hle, w', e, r'⟩ := step_of hT hz h (i := i) (op := .clear i) rfl (by simp [Op.OnDrain]) hp trivial
    obtain ⟨se1, a1, a2, a3⟩ := (shows_iff r).mp hx
    rw [hs] at a1
    cases a1
    exact main sw se w' r hs hd a3 _ (by simp [sexecVec]) e r'

/-- **C46** `truncate` to `n`, whichever destructors panic: afterwards the vector holds a prefix (of some length `m`), and the destructors that ran are those of the other elements, from the back. If no destructor (of those to be
removed) panics then `m` is `n` (or the whole length if that is shorter); otherwise the panic goes to the user, and the last destructor run was the first one to panic. -/
theorem C46_truncate (hT : T.ValidType t) (hz : T.size = 0 → Subsingleton V) {w : World V} (h : Reach t T checks panics w) {i n : Nat} (hp : Permitted t T w (.truncate i n))
    {xs : List V} (hx : Shows t T checks panics w i xs) :
    ∃ r w' m, exec t T checks panics w (.truncate i n) = .ret (r, w') ∧ (n ≤ xs.length → n ≤ m) ∧ m ≤ xs.length ∧
      Shows t T checks panics w' i (xs.take m) ∧ w'.heap.log = w.heap.log ++ (xs.drop m).reverse ∧ OthersKept t T checks panics w w' i ∧
      ((∀ x ∈ xs.drop n, panics x = false) → r = .unit ∧ m = min n xs.length) ∧
      ((∃ x ∈ xs.drop n, panics x = true) → r = .panic ∧ ∃ x, xs[m]? = some x ∧ panics x = true ∧ ∀ y ∈ xs.drop (m + 1), panics y = false) :=
  truncate_core hT hz h (.inl rfl) hp hx

/-- **C46** The same for `clear`. -/
theorem C46_clear (hT : T.ValidType t) (hz : T.size = 0 → Subsingleton V) {w : World V} (h : Reach t T checks panics w) {i : Nat} (hp : Permitted t T w (.clear i))
    {xs : List V} (hx : Shows t T checks panics w i xs) :
    ∃ r w' m, exec t T checks panics w (.clear i) = .ret (r, w') ∧ m ≤ xs.length ∧
      Shows t T checks panics w' i (xs.take m) ∧ w'.heap.log = w.heap.log ++ (xs.drop m).reverse ∧ OthersKept t T checks panics w w' i ∧
      ((∀ x ∈ xs, panics x = false) → r = .unit ∧ m = 0) ∧
      ((∃ x ∈ xs, panics x = true) → r = .panic ∧ ∃ x, xs[m]? = some x ∧ panics x = true ∧ ∀ y ∈ xs.drop (m + 1), panics y = false) := by
  obtain ⟨r, w', m, h1, _, h2, h3, h4, h5, h6, h7⟩ := truncate_core hT hz h (n := 0) (.inr ⟨rfl, rfl⟩) hp hx
  exact ⟨r, w', m, h1, h2, h3, h4, h5, by simpa using h6, by simpa using h7⟩

theorem dropAll_spec (panics : V → Bool) (u : Bool) (xs : List V) :
    (xs.countP panics + u.toNat ≤ 1 → (dropAll panics u xs).1 = xs ∧ (dropAll panics u xs).2 = if xs.countP panics + u.toNat = 0 then .ok else .panic) ∧
    (2 ≤ xs.countP panics + u.toNat → (dropAll panics u xs).2 = .abort) := by
  induction xs generalizing u with
  | nil => cases u <;> simp [dropAll]
  | cons x xs ih =>
    simp only [dropAll, List.countP_cons]
    cases hp : panics x <;> cases u <;> simp only [Bool.and_true, Bool.and_false, Bool.false_or, Bool.true_or, if_false, if_true, Bool.false_eq_true, Bool.toNat_true, Bool.toNat_false, Nat.add_zero, Bool.or_self, Bool.or_true, Bool.or_false]
    · simpa using ih false
    · have := ih true
      simp only [Bool.toNat_true] at this
      exact ⟨fun h => ⟨by rw [(this.1 h).1], (this.1 h).2⟩, this.2⟩
    · have := ih true
      simp only [Bool.toNat_true] at this
      exact ⟨fun h => ⟨by rw [(this.1 h).1], by rw [(this.1 h).2]⟩, this.2⟩
    · exact ⟨fun h => by omega, fun _ => trivial⟩

/-- **C46** Dropping the vector drops all elements, in order, also if one destructor panics (then that panic goes to the user). If more than one does the process is aborted (as for any collection); also then (`C46_never_twice`)
nothing is dropped twice. -/
theorem C46_drop (hT : T.ValidType t) (hz : T.size = 0 → Subsingleton V) {w : World V} (h : Reach t T checks panics w) {i : Nat} (hp : Permitted t T w (.drop i))
    {xs : List V} (hx : Shows t T checks panics w i xs) :
    ∃ r w', exec t T checks panics w (.drop i) = .ret (r, w') ∧ OthersKept t T checks panics w w' i ∧ w'.ents i = none ∧
      (xs.countP panics ≤ 1 → w'.heap.log = w.heap.log ++ xs ∧ r = if xs.countP panics = 0 then .unit else .panic) ∧ (2 ≤ xs.countP panics → r = .abort 0) := by
  obtain ⟨sw, se, r, hs, hd, hle, w', e, r'⟩ := step_of hT hz h (i := i) (op := .drop i) rfl (by simp [Op.OnDrain]) hp trivial
  obtain ⟨se1, a1, a2, a3⟩ := (shows_iff r).mp hx
  rw [hs] at a1
  cases a1
  subst a3
  simp only [sexecVec] at e r'
  obtain ⟨d1, d2⟩ := dropAll_spec panics false se.items
  simp only [Bool.toNat_false, Nat.add_zero] at d1 d2
  refine ⟨_, w', e, othersKept_of r r' fun j sj hj h => by simp only [SWorld.set, if_neg hj, h], ?_, fun hc => ?_, fun hc => by rw [d2 hc]⟩
  · have := r'.ents i
    simp only [SWorld.set, if_true] at this
    cases hw : w'.ents i with
    | none => rfl
    | some _ => rw [hw] at this; exact this.elim
  · obtain ⟨b1, b2⟩ := d1 hc
    refine ⟨by rw [r'.log]; simp only [b1, r.log], ?_⟩
    rw [b2]
    by_cases h0 : se.items.countP panics = 0
    · rw [if_pos h0, if_pos h0]
    · rw [if_neg h0, if_neg h0]

end FVec
end Verif
