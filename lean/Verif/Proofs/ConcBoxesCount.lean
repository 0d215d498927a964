import Verif.Proofs.ConcBoxes
/-! Proofs for boxes in a shared bump: values are neither duplicated nor lost, and stay. All about the specification. -/
namespace Verif.ConcBoxes
open Verif Bump Unsync.BumpBoxes

variable {n : Nat} {panics : List Byte → Bool}

theorem sum_upd {α : Type} (g : α → Nat) (f : Fin n → α) (t : Fin n) (a : α) {L : List (Fin n)} (hn : L.Nodup) (ht : t ∈ L) :
    (L.map fun u => g (upd f t a u)).sum + g (f t) = (L.map fun u => g (f u)).sum + g a := by
  induction L with
  | nil => cases ht
  | cons u L ih =>
    rw [List.nodup_cons] at hn
    simp only [List.map_cons, List.sum_cons]
    by_cases hu : u = t
    · subst hu
      have : (L.map fun v => g (upd f u a v)) = L.map fun v => g (f v) := List.map_congr_left fun v hv => by
        rw [upd_ne]; rintro rfl; exact hn.1 hv
      rw [upd_self, this]; omega
    · have := ih hn.2 (by simpa [Ne.symm hu] using ht)
      rw [upd_ne _ hu]; omega

/-- How many variables hold the value. -/
def held (s : SWorld n) (v : List Byte) : Nat := ((List.finRange n).map fun t => (s.boxes t).countP (holds v)).sum

theorem held_upd (s : SWorld n) (t : Fin n) (l : List (Option SBox)) (d : List (Fin n × List Byte)) (v : List Byte) :
    held ⟨upd s.boxes t l, d⟩ v + (s.boxes t).countP (holds v) = held s v + l.countP (holds v) :=
  sum_upd (fun l => l.countP (holds v)) s.boxes t l (List.nodup_finRange n) (List.mem_finRange t)

theorem sum_zero {l : List Nat} (h : ∀ c ∈ l, c = 0) : l.sum = 0 := by
  induction l with
  | nil => rfl
  | cons a l ih => rw [List.sum_cons, h a (by simp), ih fun c hc => h c (by simp [hc])]

def one (b : Bool) : Nat := if b then 1 else 0

theorem held_set {s : SWorld n} {t : Fin n} {k : Nat} {x : SBox} (hx : (s.boxes t)[k]? = some (some x)) (o : Option SBox) (v : List Byte) :
    held (s.set t k o) v + one (holds v (some x)) = held s v + one (holds v o) := by
  have h1 := held_upd s t ((s.boxes t).set k o) s.dropped v
  have h2 := countP_set' (holds v) hx o
  simp only [one, SWorld.set]
  omega

theorem held_push (s : SWorld n) (t : Fin n) (x : SBox) (v : List Byte) : held (s.push t x) v = held s v + one (holds v (some x)) := by
  have h1 := held_upd s t (s.boxes t ++ [some x]) s.dropped v
  simp only [List.countP_append, List.countP_cons, List.countP_nil] at h1
  simp only [one, SWorld.push]
  omega

def drops (s : SWorld n) (v : List Byte) : Nat := (s.dropped.map Prod.snd).count v

theorem held_destroy (s : SWorld n) (t : Fin n) (ty : VType) (x v : List Byte) : held (sdestroy t ty x s) v = held s v := by
  unfold sdestroy; cases ty.needsDrop <;> rfl

theorem drops_destroy (s : SWorld n) (t : Fin n) {ty : VType} (h : ty.needsDrop = true) (x v : List Byte) : drops (sdestroy t ty x s) v = drops s v + one (decide (x = v)) := by
  unfold sdestroy drops one
  rw [if_pos h, List.map_append, List.count_append]
  by_cases hx : x = v <;> simp [hx]

theorem count_one (x v : List Byte) : List.count v [x] = one (decide (x = v)) := by
  unfold one; by_cases h : x = v <;> simp [h]

theorem holds_some {x : SBox} (h : x.hold ≠ .uninit) (v : List Byte) : holds v (some x) = decide (x.val = v) := by simp [holds, h]
theorem holds_uninit {x : SBox} (h : x.hold = .uninit) (v : List Byte) : holds v (some x) = false := by simp [holds, h]

/-- All types of variables have destructors. -/
def Drops (s : SWorld n) : Prop := ∀ (t : Fin n) (k : Nat) (x : SBox), (s.boxes t)[k]? = some (some x) → x.ty.needsDrop = true

theorem drops_set {s : SWorld n} (hd : Drops s) {t : Fin n} {k : Nat} {x : SBox} (hx : (s.boxes t)[k]? = some (some x)) {o : Option SBox} (ho : ∀ y, o = some y → y.ty = x.ty) : Drops (s.set t k o) := by
  intro u j y hy
  simp only [SWorld.set] at hy
  by_cases hu : u = t
  · subst hu
    rw [upd_self] at hy
    by_cases hj : k = j
    · subst hj
      rw [List.getElem?_set_self (List.getElem?_eq_some_iff.mp hx).1] at hy
      rw [ho y (Option.some.inj hy)]; exact hd _ _ _ hx
    · rw [List.getElem?_set_ne hj] at hy; exact hd _ _ _ hy
  · rw [upd_ne _ hu] at hy; exact hd _ _ _ hy

theorem drops_push {s : SWorld n} (hd : Drops s) {t : Fin n} {x : SBox} (hx : x.ty.needsDrop = true) : Drops (s.push t x) := by
  intro u j y hy
  simp only [SWorld.push] at hy
  by_cases hu : u = t
  · subst hu
    rw [upd_self] at hy
    have := List.mem_of_getElem? hy
    rcases List.mem_append.mp this with h | h
    · obtain ⟨i, hi⟩ := List.mem_iff_getElem?.mp h
      exact hd _ _ _ hi
    · simp at h; rw [h]; exact hx
  · rw [upd_ne _ hu] at hy; exact hd _ _ _ hy

theorem drops_sdestroy {s : SWorld n} (hd : Drops s) {t : Fin n} {ty : VType} {v : List Byte} : Drops (sdestroy t ty v s) := by
  unfold sdestroy; split
  · exact hd
  · exact hd

theorem sboxOf_facts {call : Call} {nd : Bool} {x : SBox} (h : sboxOf call nd = some x) :
    x.ty.needsDrop = nd ∧ (x.hold = .uninit ∧ call.value = none ∨ x.hold ≠ .uninit ∧ call.value = some x.val) := by
  cases call <;> simp [sboxOf, holdOf, Call.layout, Call.value] at h <;> subst h <;> simp [Call.value]

theorem sboxOf_none {call : Call} {nd : Bool} (h : sboxOf call nd = none) : call.value = none := by
  cases call <;> simp [sboxOf, holdOf, Call.layout] at h <;> rfl

theorem drops_step {s : SWorld n} (hd : Drops s) {o : Obs n} (hn : ∀ t call nd r, o = .returned t call nd r → nd = true) : Drops (sobs panics s o).2 := by
  cases o with
  | returned t call nd r =>
    have hnd := hn t call nd r rfl
    simp only [sobs, sreturned]
    cases hb : sboxOf call nd with
    | none => exact hd
    | some x =>
      dsimp only
      by_cases hp : r.ptr?.isSome = true
      · rw [if_pos hp]; exact drops_push hd ((sboxOf_facts hb).1.trans hnd)
      · rw [if_neg hp]
        split
        · exact hd
        · exact hd
        · exact drops_sdestroy hd
  | used t u a =>
    simp only [sobs]
    rcases hk : (s.boxes t)[u.var]? with _ | _ | x
    · exact hd
    · exact hd
    · dsimp only
      cases u <;> simp only [suse] <;> first | exact hd | exact drops_set hd hk (by simp) | exact drops_sdestroy (drops_set hd hk (by simp))
  | sent t u k =>
    simp only [sobs]
    rcases hk : (s.boxes t)[k]? with _ | _ | x
    · exact hd
    · exact hd
    · exact drops_push (drops_set hd hk (by simp)) (hd _ _ _ hk)
  | reset =>
    intro t k x hx
    simp only [sobs, List.getElem?_map] at hx
    cases hw : (s.boxes t)[k]? <;> rw [hw] at hx <;> simp at hx

theorem balance_step' {s : SWorld n} (hd : Drops s) {o : Obs n} (hn : ∀ t call nd r, o = .returned t call nd r → nd = true) (ho : (sobs panics s o).1) (v : List Byte) :
    ∃ lost, held (sobs panics s o).2 v + (outputOf o).count v + drops (sobs panics s o).2 v + lost = held s v + (inputOf o).count v + drops s v ∧
      (o ≠ .reset → lost = 0) ∧ (o = .reset → lost = held s v) := by
  cases o with
  | returned t call nd r =>
    refine ⟨0, ?_, fun _ => rfl, (fun h => by cases h)⟩
    have hnd := hn t call nd r rfl
    simp only [sobs] at ho
    simp only [sobs, sreturned, inputOf]
    cases hb : sboxOf call nd with
    | none =>
      have hv := sboxOf_none hb
      have : outputOf (.returned t call nd r) = [] := by
        cases r <;> first | rfl | (have := ho _ _ rfl; rw [hv] at this; cases this)
      rw [this, hv]; simp
    | some x =>
      obtain ⟨f1, f2⟩ := sboxOf_facts hb
      dsimp only
      by_cases hp : r.ptr?.isSome = true
      · rw [if_pos hp, held_push]
        have hout : outputOf (.returned t call nd r) = [] := by cases r <;> first | rfl | simp [Ret.ptr?] at hp
        have hdr : drops (s.push t x) v = drops s v := rfl
        rw [hout, hdr]
        rcases f2 with ⟨g1, g2⟩ | ⟨g1, g2⟩
        · rw [holds_uninit g1, g2]; simp [one]
        · rw [holds_some g1, g2]
          simp only [Option.toList_some, count_one, List.count_nil]; omega
      · rw [if_neg hp]
        cases hv : call.value with
        | none =>
          have : outputOf (.returned t call nd r) = [] := by
            cases r <;> first | rfl | (have := ho _ _ rfl; rw [hv] at this; cases this)
          rw [this]; simp
        | some y =>
          by_cases hr : ∃ z f, r = .leakErr z f
          · obtain ⟨z, f, rfl⟩ := hr
            have := ho _ _ rfl
            rw [hv] at this; cases this
            simp [outputOf]
          · have hout : outputOf (.returned t call nd r) = [] := by cases r <;> first | rfl | exact absurd ⟨_, _, rfl⟩ hr
            have hd' : x.ty.needsDrop = true := f1.trans hnd
            have e1 := held_destroy s t x.ty y v
            have e2 := drops_destroy s t hd' y v
            rw [hout]
            simp only [Option.toList_some, count_one, List.count_nil]
            split
            · rename_i h; cases h
            · exact absurd ⟨_, _, rfl⟩ hr
            · rename_i h _
              cases h
              rw [e1, e2]; omega
  | used t u a =>
    refine ⟨0, ?_, fun _ => rfl, (fun h => by cases h)⟩
    simp only [sobs] at ho ⊢
    rcases hk : (s.boxes t)[u.var]? with _ | _ | x
    · rw [hk] at ho; exact ho.elim
    · rw [hk] at ho; exact ho.elim
    · rw [hk] at ho
      obtain ⟨hkind, ha⟩ := ho
      dsimp only at ha ⊢
      have hset := fun o => held_set hk o v
      have hds : ∀ o, drops (s.set t u.var o) v = drops s v := fun _ => rfl
      have hdt := hd t _ x hk
      have e1 := fun s' => held_destroy (n := n) s' t x.ty x.val v
      have e2 := fun s' => drops_destroy (n := n) s' t hdt x.val v
      cases u with
      | boxed k y | leakInto k y =>
        simp only [Use.kinds, List.mem_singleton] at hkind
        have h1 := hset (some ⟨x.ty, .boxed, y⟩)
        have h2 := hset (some ⟨x.ty, .bare, y⟩)
        rw [holds_uninit hkind, holds_some (by simp)] at h1 h2
        simp only [Use.var, one] at h1 h2 hds
        simp only [suse, outputOf, inputOf, count_one, List.count_nil, hds, one]
        simp at h1 h2 ⊢
        omega
      | deref k => simp [suse, outputOf, inputOf]
      | replace k y =>
        have hu : x.hold ≠ .uninit := by intro e; rw [e] at hkind; simp [Use.kinds] at hkind
        have h1 := hset (some { x with val := y })
        rw [holds_some hu, holds_some (x := { x with val := y }) hu] at h1
        simp only [suse] at ha
        subst ha
        simp only [Use.var] at h1 hds
        simp only [suse, outputOf, inputOf, count_one, hds]
        omega
      | assign k y =>
        have hu : x.hold ≠ .uninit := by intro e; rw [e] at hkind; simp [Use.kinds] at hkind
        have h1 := hset (some { x with val := y })
        rw [holds_some hu, holds_some (x := { x with val := y }) hu] at h1
        simp only [Use.var] at h1 hds
        simp only [suse, outputOf, inputOf, count_one, List.count_nil, e1, e2, hds]
        omega
      | take k =>
        have hu : x.hold ≠ .uninit := by intro e; rw [e] at hkind; simp [Use.kinds] at hkind
        have h1 := hset none
        rw [holds_some hu] at h1
        simp only [suse] at ha
        subst ha
        simp only [Use.var, holds] at h1 hds
        simp only [suse, outputOf, inputOf, count_one, List.count_nil, hds]
        simp only [one] at h1 ⊢
        simp at h1 ⊢; omega
      | leak k | intoRaw k | fromRaw k =>
        have hu : x.hold ≠ .uninit := by intro e; rw [e] at hkind; simp [Use.kinds] at hkind
        have h1 := hset (some { x with hold := .bare })
        have h2 := hset (some { x with hold := .boxed })
        rw [holds_some hu, holds_some (by simp)] at h1 h2
        simp only [Use.var] at h1 h2 hds
        simp only [suse, outputOf, inputOf, List.count_nil, hds]
        simp only [one] at h1 h2 ⊢
        omega
      | drop k =>
        have hu : x.hold ≠ .uninit := by intro e; rw [e] at hkind; simp [Use.kinds] at hkind
        have h1 := hset none
        rw [holds_some hu] at h1
        simp only [Use.var, holds] at h1 hds
        simp only [suse, outputOf, inputOf, List.count_nil, e1, e2, hds]
        simp only [one] at h1 ⊢
        simp at h1 ⊢; omega
  | sent t u k =>
    refine ⟨0, ?_, fun _ => rfl, (fun h => by cases h)⟩
    simp only [sobs] at ho ⊢
    rcases hk : (s.boxes t)[k]? with _ | _ | x
    · rw [hk] at ho; exact ho.elim
    · rw [hk] at ho; exact ho.elim
    · dsimp only
      have h1 := held_set hk none v
      have h2 := held_push (s.set t k none) u x v
      have h3 : drops ((s.set t k none).push u x) v = drops s v := rfl
      simp only [outputOf, inputOf, List.count_nil, h2, h3]
      simp only [one, holds] at h1 ⊢
      simp at h1 ⊢; omega
  | reset =>
    refine ⟨held s v, ?_, fun h => absurd rfl h, fun _ => rfl⟩
    have h0 : held (sobs panics s .reset).2 v = 0 := by
      simp only [held, sobs]
      apply sum_zero
      intro c hc
      obtain ⟨t, -, rfl⟩ := List.mem_map.mp hc
      rw [List.countP_eq_zero]
      intro o ho
      obtain ⟨_, _, rfl⟩ := List.mem_map.mp ho
      simp [holds]
    rw [h0]
    have : drops (sobs panics s .reset).2 v = drops s v := rfl
    rw [this]
    simp [outputOf, inputOf]; omega

/-- Nothing is held. -/
def Empty (s : SWorld n) : Prop := ∀ t, ∀ o ∈ s.boxes t, o = none

theorem held_empty {s : SWorld n} (h : Empty s) (v : List Byte) : held s v = 0 := by
  unfold held
  apply sum_zero
  intro c hc
  obtain ⟨t, -, rfl⟩ := List.mem_map.mp hc
  rw [List.countP_eq_zero]
  intro o ho
  rw [h t o ho]; simp [holds]

theorem balance_run' {s : SWorld n} (hd : Drops s) {os : List (Obs n)} (hn : AllDrop os) (ho : Explains panics s os) (v : List Byte) :
    ∃ lost, held (replay panics s os) v + (outputsOf os).count v + drops (replay panics s os) v + lost = held s v + (inputsOf os).count v + drops s v ∧
      ((∀ pre post, os = pre ++ .reset :: post → Empty (replay panics s pre)) → lost = 0) := by
  induction os generalizing s with
  | nil => exact ⟨0, by simp [replay, inputsOf, outputsOf], fun _ => rfl⟩
  | cons o os ih =>
    have hn1 : ∀ t call nd r, o = .returned t call nd r → nd = true := fun t call nd r h => hn t call nd r (by simp [h])
    obtain ⟨l1, b1, b2, b3⟩ := balance_step' (panics := panics) hd hn1 ho.1 v
    obtain ⟨l2, c1, c2⟩ := ih (drops_step hd hn1) (fun t call nd r h => hn t call nd r (by simp [h])) ho.2
    refine ⟨l1 + l2, ?_, fun hr => ?_⟩
    · simp only [replay, inputsOf, outputsOf, List.map_cons, List.flatten_cons, List.count_append] at c1 ⊢
      omega
    · have h2 : l2 = 0 := c2 fun pre post he => by subst he; exact hr (o :: pre) post rfl
      have h1 : l1 = 0 := by
        by_cases h : o = .reset
        · rw [b3 h]; subst h; exact held_empty (hr [] os rfl) v
        · exact b2 h
      omega

/-! ### Values stay -/

theorem get_set_ne {s : SWorld n} {t u : Fin n} {k j : Nat} (h : (t, k) ≠ (u, j)) (o : Option SBox) : ((s.set u j o).boxes t)[k]? = (s.boxes t)[k]? := by
  simp only [SWorld.set]
  by_cases ht : t = u
  · subst ht
    rw [upd_self, List.getElem?_set_ne]
    rintro rfl; exact h rfl
  · rw [upd_ne _ ht]

theorem get_set_self {s : SWorld n} {t : Fin n} {k : Nat} {x : SBox} (hk : (s.boxes t)[k]? = some (some x)) (o : Option SBox) : ((s.set t k o).boxes t)[k]? = some o := by
  simp only [SWorld.set, upd_self]
  exact List.getElem?_set_self (List.getElem?_eq_some_iff.mp hk).1

theorem get_push {s : SWorld n} {t u : Fin n} {k : Nat} {x y : SBox} (hk : (s.boxes t)[k]? = some (some x)) : ((s.push u y).boxes t)[k]? = some (some x) := by
  simp only [SWorld.push]
  by_cases ht : t = u
  · subst ht
    rw [upd_self, List.getElem?_append_left (List.getElem?_eq_some_iff.mp hk).1]; exact hk
  · rw [upd_ne _ ht]; exact hk

theorem get_destroy {s : SWorld n} {t u : Fin n} {k : Nat} {ty : VType} {v : List Byte} : ((sdestroy u ty v s).boxes t)[k]? = (s.boxes t)[k]? := by
  unfold sdestroy; split <;> rfl

/-- The variable `k` of thread `t` has the value. -/
def HasVal (s : SWorld n) (t : Fin n) (k : Nat) (v : List Byte) : Prop := ∃ x, (s.boxes t)[k]? = some (some x) ∧ x.hold ≠ .uninit ∧ x.val = v

theorem leaves_step {s : SWorld n} {t : Fin n} {k : Nat} {v : List Byte} (h : HasVal s t k v) {o : Obs n} (hl : Leaves t k o) : HasVal (sobs panics s o).2 t k v := by
  obtain ⟨x, hx, hu, hv⟩ := h
  cases o with
  | returned u call nd r =>
    simp only [sobs, sreturned]
    cases hb : sboxOf call nd with
    | none => exact ⟨x, hx, hu, hv⟩
    | some y =>
      dsimp only
      by_cases hp : r.ptr?.isSome = true
      · rw [if_pos hp]; exact ⟨x, get_push hx, hu, hv⟩
      · rw [if_neg hp]
        split
        · exact ⟨x, hx, hu, hv⟩
        · exact ⟨x, hx, hu, hv⟩
        · exact ⟨x, get_destroy.trans hx, hu, hv⟩
  | used u i a =>
    simp only [sobs]
    rcases hk : (s.boxes u)[i.var]? with _ | _ | y
    · exact ⟨x, hx, hu, hv⟩
    · exact ⟨x, hx, hu, hv⟩
    · dsimp only
      by_cases hne : (t, k) = (u, i.var)
      · cases hne
        rw [hx] at hk; cases hk
        have := hl.2.2 i a rfl rfl
        simp only [List.mem_cons, List.not_mem_nil, or_false] at this
        rcases this with h | h | h | h <;> rw [h] at hx ⊢ <;> simp only [suse, Use.var] at hx ⊢
        · exact ⟨x, hx, hu, hv⟩
        · exact ⟨_, get_set_self hx _, by simp, hv⟩
        · exact ⟨_, get_set_self hx _, by simp, hv⟩
        · exact ⟨_, get_set_self hx _, by simp, hv⟩
      · cases i <;> simp only [suse] <;> simp only [Use.var] at hne <;>
          first
            | exact ⟨x, hx, hu, hv⟩
            | exact ⟨x, (get_set_ne hne _).trans hx, hu, hv⟩
            | exact ⟨x, get_destroy.trans ((get_set_ne hne _).trans hx), hu, hv⟩
  | sent u w j =>
    simp only [sobs]
    rcases hk : (s.boxes u)[j]? with _ | _ | y
    · exact ⟨x, hx, hu, hv⟩
    · exact ⟨x, hx, hu, hv⟩
    · have hne : (t, k) ≠ (u, j) := by intro e; cases e; exact hl.2.1 w rfl
      exact ⟨x, get_push ((get_set_ne hne _).trans hx), hu, hv⟩
  | reset => exact absurd rfl hl.1

theorem leaves_run {s : SWorld n} {t : Fin n} {k : Nat} {v : List Byte} (h : HasVal s t k v) {os : List (Obs n)} (hl : ∀ o ∈ os, Leaves t k o) : HasVal (replay panics s os) t k v := by
  induction os generalizing s with
  | nil => exact h
  | cons o os ih => exact ih (leaves_step h (hl o (by simp))) fun o h => hl o (by simp [h])

theorem shows_step {s : SWorld n} {t : Fin n} {k : Nat} {v : List Byte} {o : Obs n} (hs : Shows t k v o) (ho : (sobs panics s o).1) : HasVal (sobs panics s o).2 t k v := by
  have key : ∀ {u : Use} {a : Ans}, (sobs panics s (.used t u a)).1 → ∃ x, (s.boxes t)[u.var]? = some (some x) ∧ x.hold ∈ u.kinds ∧ a = (suse panics s t x u).1 ∧
      (sobs panics s (.used t u a)).2 = (suse panics s t x u).2 := by
    intro u a h
    simp only [sobs] at h ⊢
    rcases hk : (s.boxes t)[u.var]? with _ | _ | x
    · rw [hk] at h; exact h.elim
    · rw [hk] at h; exact h.elim
    · rw [hk] at h; exact ⟨x, rfl, h.1, h.2, rfl⟩
  rcases hs with ⟨a, h | h | h | h⟩ | h <;> subst h <;> obtain ⟨x, hx, hk, ha, he⟩ := key ho <;> rw [he]
  · exact ⟨_, get_set_self hx _, by simp, rfl⟩
  · exact ⟨_, get_set_self hx _, by simp, rfl⟩
  · exact ⟨_, get_set_self hx _, by intro e; simp only at e; rw [e] at hk; simp [Use.kinds] at hk, rfl⟩
  · exact ⟨_, get_destroy.trans (get_set_self hx _), by intro e; simp only at e; rw [e] at hk; simp [Use.kinds] at hk, rfl⟩
  · simp only [suse] at ha ⊢
    cases ha
    exact ⟨x, hx, by intro e; rw [e] at hk; simp [Use.kinds] at hk, rfl⟩

theorem deref_hasVal {s : SWorld n} {t : Fin n} {k : Nat} {v : List Byte} (h : HasVal s t k v) {a : Ans} (ha : (sobs panics s (.used t (.deref k) a)).1) : a = .val v := by
  obtain ⟨x, hx, -, rfl⟩ := h
  simp only [sobs, Use.var, hx, suse] at ha
  exact ha.2

theorem explains_append {s : SWorld n} {xs ys : List (Obs n)} : Explains panics s (xs ++ ys) ↔ Explains panics s xs ∧ Explains panics (replay panics s xs) ys := by
  induction xs generalizing s with
  | nil => simp [Explains, replay]
  | cons o xs ih => simp only [List.cons_append, Explains, replay, ih, and_assoc]

end Verif.ConcBoxes
