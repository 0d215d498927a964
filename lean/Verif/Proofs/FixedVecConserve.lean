import Mathlib.Data.List.Count
import Verif.Proofs.FixedVec
/-! # Where the values go -/
namespace Verif.FVec
open Verif

variable {V : Type} [DecidableEq V]

def contentsAt (o : Option (SVec V)) : List V := match o with | none => [] | some e => e.contents

omit [DecidableEq V] in
theorem live_eq (w : SWorld V) : w.live = (List.range w.next).flatMap fun i => contentsAt (w.vecs i) := rfl

theorem count_flatMap_update {v : V} {f g : Nat → List V} {i : Nat} (h : ∀ j, j ≠ i → f j = g j) (n : Nat) (hi : i < n) :
    ((List.range n).flatMap f).count v + (g i).count v = ((List.range n).flatMap g).count v + (f i).count v := by
  have same : ∀ n, n ≤ i → ((List.range n).flatMap f) = ((List.range n).flatMap g) := by
    intro n hn
    induction n with
    | zero => rfl
    | succ n ih =>
      rw [List.range_succ, List.flatMap_append, List.flatMap_append, ih (by omega)]
      simp [h n (by omega)]
  induction n with
  | zero => omega
  | succ n ih =>
    rw [List.range_succ, List.flatMap_append, List.flatMap_append]
    simp only [List.flatMap_cons, List.flatMap_nil, List.append_nil, List.count_append]
    by_cases hin : i = n
    · subst hin
      rw [same i (Nat.le_refl _)]
      omega
    · have := ih (by omega)
      rw [h n (by omega)]
      omega

theorem count_live_set {v : V} (w : SWorld V) {i : Nat} (hi : i < w.next) (o : Option (SVec V)) :
    (w.set i o).live.count v + (contentsAt (w.vecs i)).count v = w.live.count v + (contentsAt o).count v := by
  have := count_flatMap_update (v := v) (f := fun j => contentsAt ((w.set i o).vecs j)) (g := fun j => contentsAt (w.vecs j)) (i := i)
    (fun j hj => by simp [SWorld.set, hj]) w.next hi
  simp only [live_eq]
  have hn : (w.set i o).next = w.next := rfl
  have hset : (w.set i o).vecs i = o := by simp [SWorld.set]
  rw [hn]
  simp only [hset] at this
  exact this

theorem count_live_add {v : V} (w : SWorld V) (sg : SVec V) :
    ({ w.set w.next (some sg) with next := w.next + 1 } : SWorld V).live.count v = w.live.count v + sg.contents.count v := by
  simp only [live_eq, List.range_succ, List.flatMap_append, List.count_append]
  congr 1
  · congr 1
    refine List.flatMap_congr fun j hj => ?_
    have : j ≠ w.next := by have := List.mem_range.mp hj; omega
    simp [SWorld.set, this]
  · simp [SWorld.set, contentsAt]

/-- Conservation of values. -/
structure Conserve (w : SWorld V) : Prop where
  bound : ∀ i e, w.vecs i = some e → i < w.next
  count : ∀ v, w.taken.count v = w.handed.count v + w.dropped.count v + w.leaked.count v + w.live.count v

theorem count_getLast? (v : V) (xs : List V) : xs.dropLast.count v + xs.getLast?.toList.count v = xs.count v := by
  rcases List.eq_nil_or_concat xs with rfl | ⟨ys, y, rfl⟩
  · simp
  · simp [List.count_append]

theorem count_head? (v : V) (xs : List V) : xs.head?.toList.count v + xs.tail.count v = xs.count v := by
  cases xs with
  | nil => simp
  | cons x xs => simp only [List.head?_cons, Option.toList_some, List.tail_cons]; rw [← List.count_append]; rfl

theorem count_dropUntil (panics : V → Bool) (v : V) (xs : List V) :
    (dropUntil panics xs).1.count v + (xs.drop (dropUntil panics xs).1.length).count v = xs.count v := by
  rw [← List.count_append, dropUntil_append]

theorem count_dropAll (panics : V → Bool) (u : Bool) (v : V) (xs : List V) :
    (dropAll panics u xs).1.count v + (xs.drop (dropAll panics u xs).1.length).count v = xs.count v := by
  rw [← List.count_append, dropAll_append]

omit [DecidableEq V] in
theorem take_sub_dropUntil (panics : V → Bool) (xs : List V) (n : Nat) :
    xs.take (xs.length - (dropUntil panics (xs.drop n).reverse).1.length) ++ (dropUntil panics (xs.drop n).reverse).1.reverse = xs := by
  have h := congrArg List.reverse (dropUntil_append panics (xs.drop n).reverse)
  have hle := dropUntil_length_le panics (xs.drop n).reverse
  generalize hds : (dropUntil panics (xs.drop n).reverse).1 = ds at h hle ⊢
  simp only [List.reverse_append, List.reverse_reverse, List.drop_reverse, List.length_drop, List.length_reverse] at h hle
  have h2 : xs.take n ++ xs.drop n = xs := List.take_append_drop n xs
  rw [← h, ← List.append_assoc] at h2
  have h3 : xs.take n ++ (xs.drop n).take (xs.length - n - ds.length) = xs.take (xs.length - ds.length) := by
    by_cases hn : n ≤ xs.length
    · rw [show xs.length - ds.length = n + (xs.length - n - ds.length) by omega, List.take_add]
    · have : ds.length = 0 := by omega
      simp [this, List.drop_eq_nil_of_le (show xs.length ≤ n by omega), List.take_of_length_le (show xs.length ≤ n by omega)]
  rw [h3] at h2
  exact h2

theorem count_truncate (panics : V → Bool) (v : V) (xs : List V) (n : Nat) :
    (xs.take (xs.length - (dropUntil panics (xs.drop n).reverse).1.length)).count v + (dropUntil panics (xs.drop n).reverse).1.count v = xs.count v := by
  have h := congrArg (List.count v) (take_sub_dropUntil panics xs n)
  rw [List.count_append, List.count_reverse] at h
  exact h

theorem count_set' (v : V) (xs : List V) (k : Nat) (x old : V) (h : xs[k]? = some old) : (xs.set k x).count v + [old].count v = xs.count v + [x].count v := by
  induction xs generalizing k with
  | nil => simp at h
  | cons y ys ih =>
    cases k with
    | zero =>
      simp only [List.getElem?_cons_zero, Option.some.injEq] at h
      subst h
      simp only [List.set_cons_zero, List.count_cons, List.count_nil]
      omega
    | succ k =>
      simp only [List.getElem?_cons_succ] at h
      have := ih k h
      simp only [List.set_cons_succ, List.count_cons, List.count_nil] at this ⊢
      omega

theorem count_take_drop (v : V) (xs : List V) (n : Nat) : (xs.take n).count v + (xs.drop n).count v = xs.count v := by
  rw [← List.count_append, List.take_append_drop]

theorem count_drain (v : V) (xs : List V) {a b : Nat} (h : a ≤ b) : (xs.take a).count v + (((xs.drop a).take (b - a)).count v + (xs.drop b).count v) = xs.count v := by
  have h1 := count_take_drop v xs a
  have h2 := count_take_drop v (xs.drop a) (b - a)
  rw [List.drop_drop, show a + (b - a) = b by omega] at h2
  omega

/-- Update of one vector. -/
theorem conserve_update {w : SWorld V} (c : Conserve w) {i : Nat} {e : SVec V} (he : w.vecs i = some e) {o : Option (SVec V)} {tk hd dr lk : List V}
    (h : ∀ v, tk.count v + e.contents.count v + w.handed.count v + w.dropped.count v + w.leaked.count v =
      w.taken.count v + (contentsAt o).count v + hd.count v + dr.count v + lk.count v) :
    Conserve { w.set i o with taken := tk, handed := hd, dropped := dr, leaked := lk } := by
  refine ⟨fun j f hf => ?_, fun v => ?_⟩
  · simp only [SWorld.set] at hf ⊢
    split at hf
    · rename_i hj; rw [hj]; exact c.bound i e he
    · exact c.bound j f hf
  · have h1 := count_live_set (v := v) w (c.bound i e he) o
    have h2 := c.count v
    have h3 := h v
    have h4 : ({ w.set i o with taken := tk, handed := hd, dropped := dr, leaked := lk } : SWorld V).live = (w.set i o).live := rfl
    rw [he] at h1
    rw [h4]
    simp only [contentsAt] at *
    omega

theorem conserve_add {w : SWorld V} (c : Conserve w) (sg : SVec V)
    (h : ∀ v, w.taken.count v + 0 = w.handed.count v + w.dropped.count v + w.leaked.count v + w.live.count v + sg.contents.count v) :
    Conserve { w.set w.next (some sg) with next := w.next + 1 } := by
  refine ⟨fun j f hf => ?_, fun v => ?_⟩
  · simp only [SWorld.set] at hf ⊢
    split at hf
    · omega
    · have := c.bound j f hf; omega
  · rw [count_live_add]
    have := h v
    simp only [SWorld.set]
    omega

omit [DecidableEq V] in
theorem contents_none {e : SVec V} (h : e.drain = none) : e.contents = e.items := by simp [SVec.contents, h]
omit [DecidableEq V] in
theorem contents_some {e : SVec V} {d : SDrain V} (h : e.drain = some d) : e.contents = e.items ++ (d.rest ++ d.tail) := by simp [SVec.contents, h]

theorem conserve_vec {t : Target} {T : Layout} {panics : V → Bool} {w : SWorld V} (c : Conserve w) {i : Nat} {e : SVec V} (he : w.vecs i = some e) (hd : e.drain = none) (op : Op V) :
    Conserve (sexecVec t T panics w i e op).2 := by
  have same : ∀ {tk hd' dr lk : List V}, (∀ v, tk.count v + w.handed.count v + w.dropped.count v + w.leaked.count v = w.taken.count v + hd'.count v + dr.count v + lk.count v) →
      Conserve { w with taken := tk, handed := hd', dropped := dr, leaked := lk } := by
    intro tk hd' dr lk h
    refine ⟨c.bound, fun v => ?_⟩
    have h1 := c.count v
    have h2 := h v
    have h4 : ({ w with taken := tk, handed := hd', dropped := dr, leaked := lk } : SWorld V).live = w.live := rfl
    rw [h4]
    show tk.count v = hd'.count v + dr.count v + lk.count v + w.live.count v
    omega
  cases op with
  | push k v =>
    simp only [sexecVec]
    split
    · refine conserve_update c he fun u => ?_
      simp only [SWorld.set, contentsAt, SVec.contents, hd, List.append_nil, List.count_append]
      omega
    · refine same fun u => ?_
      simp only [List.count_append]
      omega
  | pop k =>
    refine conserve_update c he fun u => ?_
    have := count_getLast? u e.items
    simp only [SWorld.set, contentsAt, SVec.contents, hd, List.append_nil, List.count_append]
    omega
  | truncate k n =>
    refine conserve_update c he fun u => ?_
    have := count_truncate panics u e.items n
    simp only [SWorld.set, contentsAt, SVec.contents, hd, List.append_nil, List.count_append]
    omega
  | clear k =>
    refine conserve_update c he fun u => ?_
    have := count_truncate panics u e.items 0
    simp only [List.drop_zero] at this
    simp only [SWorld.set, contentsAt, SVec.contents, hd, List.append_nil, List.count_append]
    omega
  | fill k it =>
    refine conserve_update c he fun u => ?_
    simp only [SWorld.set, contentsAt, SVec.contents, hd, List.append_nil, List.count_append]
    omega
  | extend k it =>
    simp only [sexecVec]
    split
    · refine conserve_update c he fun u => ?_
      simp only [SWorld.set, contentsAt, SVec.contents, hd, List.append_nil, List.count_append]
      omega
    · split <;>
      · refine conserve_update c he fun u => ?_
        simp only [SWorld.set, contentsAt, SVec.contents, hd, List.append_nil, List.count_append]
        omega
  | setLen k vs n =>
    refine conserve_update c he fun u => ?_
    have := count_take_drop u (e.items ++ vs) n
    simp only [List.count_append] at this
    simp only [SWorld.set, contentsAt, SVec.contents, hd, List.append_nil, List.count_append]
    omega
  | len k => exact c
  | capacity k => exact c
  | isEmpty k => exact c
  | slice k => exact c
  | index k n => simp only [sexecVec]; split <;> exact c
  | replace k n v =>
    simp only [sexecVec]
    split
    · rename_i old hold
      refine conserve_update c he fun u => ?_
      have := count_set' u e.items n v old hold
      simp only [SWorld.set, contentsAt, SVec.contents, hd, List.append_nil, List.count_append]
      omega
    · refine same fun u => ?_
      simp only [List.count_append]
      omega
  | splitBorrowed k n =>
    simp only [sexecVec]
    split
    · have c1 : Conserve { w.set i (some { e with items := e.items.take n }) with taken := w.taken, handed := w.handed, dropped := w.dropped, leaked := e.items.drop n ++ w.leaked } := by
        refine conserve_update c he fun u => ?_
        have := count_take_drop u e.items n
        simp only [contentsAt, SVec.contents, hd, List.append_nil, List.count_append]
        omega
      have h1 := c1.count
      refine ⟨fun j f hf => ?_, fun u => ?_⟩
      · simp only [SWorld.set] at hf ⊢
        split at hf
        · omega
        · split at hf
          · rename_i hj; have := c.bound i e he; omega
          · have := c.bound j f hf; omega
      · have h2 := count_live_add (v := u) (w.set i (some { e with items := e.items.take n }))
          ⟨e.items.drop n, if T.size = 0 then t.usizeMax else e.cap - n, none, i :: e.borrows⟩
        have h3 : w.taken.count u = w.handed.count u + w.dropped.count u + (e.items.drop n ++ w.leaked).count u + (w.set i (some { e with items := e.items.take n })).live.count u := h1 u
        refine Eq.trans ?_ (congrArg (fun x => w.handed.count u + w.dropped.count u + w.leaked.count u + x) h2.symm)
        simp only [SVec.contents, List.append_nil, List.count_append] at h3 ⊢
        show w.taken.count u = _
        omega
    · exact c
  | splitShrink k n =>
    simp only [sexecVec]
    split
    · have c1 : Conserve { w.set i (some { e with items := e.items.take n, cap := if T.size = 0 then t.usizeMax else n }) with taken := w.taken, handed := w.handed, dropped := w.dropped, leaked := e.items.drop n ++ w.leaked } := by
        refine conserve_update c he fun u => ?_
        have := count_take_drop u e.items n
        simp only [contentsAt, SVec.contents, hd, List.append_nil, List.count_append]
        omega
      have h1 := c1.count
      refine ⟨fun j f hf => ?_, fun u => ?_⟩
      · simp only [SWorld.set] at hf ⊢
        split at hf
        · omega
        · split at hf
          · rename_i hj; have := c.bound i e he; omega
          · have := c.bound j f hf; omega
      · have h2 := count_live_add (v := u) (w.set i (some { e with items := e.items.take n, cap := if T.size = 0 then t.usizeMax else n }))
          ⟨e.items.drop n, if T.size = 0 then t.usizeMax else e.cap - n, none, e.borrows⟩
        have h3 : w.taken.count u = w.handed.count u + w.dropped.count u + (e.items.drop n ++ w.leaked).count u + (w.set i (some { e with items := e.items.take n, cap := if T.size = 0 then t.usizeMax else n })).live.count u := h1 u
        refine Eq.trans ?_ (congrArg (fun x => w.handed.count u + w.dropped.count u + w.leaked.count u + x) h2.symm)
        simp only [SVec.contents, List.append_nil, List.count_append] at h3 ⊢
        show w.taken.count u = _
        omega
    · exact c
  | shrinkToFit k => exact c
  | drain k lo hi =>
    simp only [sexecVec]
    split
    · rename_i hc
      refine conserve_update c he fun u => ?_
      have := count_drain u e.items hc.1
      simp only [SWorld.set, contentsAt, SVec.contents, hd, List.append_nil, List.count_append]
      omega
    · exact c
  | drop k =>
    refine conserve_update c he fun u => ?_
    have := count_dropAll panics false u e.items
    simp only [SWorld.set, contentsAt, SVec.contents, hd, List.append_nil, List.count_append, List.count_nil]
    omega
  | forget k =>
    refine conserve_update c he fun u => ?_
    simp only [SWorld.set, contentsAt, SVec.contents, hd, List.append_nil, List.count_append, List.count_nil]
    omega
  | _ => exact c

theorem conserve_drain {panics : V → Bool} {w : SWorld V} (c : Conserve w) {i : Nat} {e : SVec V} (he : w.vecs i = some e) {d : SDrain V} (hd : e.drain = some d) (op : Op V) :
    Conserve (sexecDrain panics w i e d op).2 := by
  cases op with
  | next k =>
    refine conserve_update c he fun u => ?_
    have := count_head? u d.rest
    simp only [SWorld.set, contentsAt, SVec.contents, hd, List.count_append]
    omega
  | nextBack k =>
    refine conserve_update c he fun u => ?_
    have := count_getLast? u d.rest
    simp only [SWorld.set, contentsAt, SVec.contents, hd, List.count_append]
    omega
  | drainLen k => exact c
  | drainSlice k => exact c
  | drainReplace k n v =>
    simp only [sexecDrain]
    split
    · rename_i old hold
      refine conserve_update c he fun u => ?_
      have := count_set' u d.rest n v old hold
      simp only [SWorld.set, contentsAt, SVec.contents, hd, List.count_append]
      omega
    · refine ⟨c.bound, fun u => ?_⟩
      have := c.count u
      have hl : SWorld.live { w with taken := w.taken ++ [v], dropped := w.dropped ++ [v] } = w.live := rfl
      simp only [hl, List.count_append]
      omega
  | dropDrain k =>
    simp only [sexecDrain]
    split
    · refine conserve_update c he fun u => ?_
      have := count_dropUntil panics u d.rest
      simp only [SWorld.set, contentsAt, SVec.contents, hd, List.count_append, List.append_nil]
      omega
    · rename_i hp
      refine conserve_update c he fun u => ?_
      have := dropUntil_not_panic panics d.rest (by simpa using hp)
      rw [this]
      simp only [SWorld.set, contentsAt, SVec.contents, hd, List.count_append, List.append_nil]
      omega
  | forgetDrain k =>
    refine conserve_update c he fun u => ?_
    simp only [SWorld.set, contentsAt, SVec.contents, hd, List.count_append, List.append_nil]
    omega
  | _ => exact c

theorem conserve_step {t : Target} {T : Layout} {panics : V → Bool} {w : SWorld V} (c : Conserve w) (op : Op V) : Conserve (sexec t T panics w op).2 := by
  have hv : ∀ op : Op V, Conserve (match op.target.bind fun i => (w.vecs i).map fun e => (i, e) with
      | none => (Resp.unit, w)
      | some (i, e) => match e.drain with
        | none => sexecVec t T panics w i e op
        | some d => sexecDrain panics w i e d op).2 := by
    intro op
    cases hx : op.target.bind fun i => (w.vecs i).map fun e => (i, e) with
    | none => exact c
    | some p =>
      obtain ⟨i, e⟩ := p
      have he : w.vecs i = some e := by
        cases ht : op.target with
        | none => rw [ht] at hx; simp at hx
        | some j =>
          rw [ht] at hx
          simp only [Option.bind_some, Option.map_eq_some_iff, Prod.mk.injEq] at hx
          obtain ⟨e', h1, h2, h3⟩ := hx
          subst h2; subst h3; exact h1
      simp only
      cases hd : e.drain with
      | none => exact conserve_vec c he hd op
      | some d => exact conserve_drain c he hd op
  cases op with
  | new a l =>
    refine conserve_add c _ fun v => ?_
    have := c.count v
    simp only [SVec.contents, List.append_nil, List.count_nil]
    omega
  | _ => exact hv _

theorem conserve_run {t : Target} {T : Layout} {panics : V → Bool} {w : SWorld V} (c : Conserve w) (ops : List (Op V)) : Conserve (srun t T panics w ops).2 := by
  induction ops generalizing w with
  | nil => exact c
  | cons op ops ih =>
    have c1 := conserve_step (t := t) (T := T) (panics := panics) c op
    simp only [srun]
    generalize sexec t T panics w op = R at c1
    obtain ⟨r, w1⟩ := R
    cases r with
    | abort => exact c1
    | _ => exact ih c1

omit [DecidableEq V] in
theorem init_live : (SWorld.init : SWorld V).live = [] := rfl

theorem conserve_init : Conserve (SWorld.init : SWorld V) := ⟨(fun i e h => by cases h), fun v => by simp [SWorld.init, SWorld.live]⟩

end Verif.FVec
