import Verif.Model.Threads
import Mathlib.Data.List.Basic
import Mathlib.Algebra.BigOperators.Group.List.Basic
import Mathlib.Tactic.Ring
import Mathlib.Tactic.Linarith
/-
  Invariant and measure of the multithreaded loop.
-/
namespace SciCpp
namespace MT

variable {V : Type}

/-- Segments taken by a thread whose contribution is not yet in `res`. -/
def pendingOf : Option (ℕ × WPhase V) → Option ℕ
  | some (_, .finished) => none
  | some (k, _) => some k
  | none => none

/-- Remaining actions of a worker. -/
def remOf : Option (ℕ × WPhase V) → ℕ
  | some (_, .start) => 4
  | some (_, .computed _) => 3
  | some (_, .locked _) => 2
  | some (_, .loaded _ _) => 1
  | some (_, .finished) => 0
  | none => 0

/-- Does the worker hold the mutex? -/
def holds : WPhase V → Prop
  | .locked _ => True
  | .loaded _ _ => True
  | _ => False

/-- Local values of a worker. -/
def valOk (seg : ℕ → V) (res : V) (k : ℕ) : WPhase V → Prop
  | .computed v => v = seg k
  | .locked v => v = seg k
  | .loaded v r => v = seg k ∧ r = res
  | _ => True

/-- Control invariant of the main thread. -/
def ctrlOk (n nseg : ℕ) (s : MT V) : Prop :=
  match s.pc with
  | .spawn j => s.i < nseg ∧ j ≤ n ∧ ∀ k, j ≤ k → k < n → s.pool[k]? = some none
  | .join j => j ≤ n ∧ ∀ k, k < j → s.pool[k]? = some none
  | .done => s.i = nseg ∧ ∀ k, k < n → s.pool[k]? = some none
  | .crashed => False

/-- The invariant. -/
structure Inv [Add V] (n nseg : ℕ) (seg : ℕ → V) (zero : V) (s : MT V) : Prop where
  len : s.pool.length = n
  ile : s.i ≤ nseg
  ctrl : ctrlOk n nseg s
  lock1 : ∀ (j k : ℕ) (ph : WPhase V), s.pool[j]? = some (some (k, ph)) → holds ph → s.lock = some j
  lock2 : ∀ j : ℕ, s.lock = some j → ∃ (k : ℕ) (ph : WPhase V), s.pool[j]? = some (some (k, ph)) ∧ holds ph
  vals : ∀ (j k : ℕ) (ph : WPhase V), s.pool[j]? = some (some (k, ph)) → valOk seg s.res k ph
  order : ∃ ord : List ℕ, s.res = ord.foldl (fun acc i => acc + seg i) zero ∧
    (ord ++ s.pool.filterMap pendingOf).Perm (List.range s.i)

/-- Termination measure. -/
def measure (n nseg : ℕ) (s : MT V) : ℕ :=
  (match s.pc with
    | .spawn j => (n + 7) * (nseg - s.i) + (if j = 0 then 0 else n + 2)
    | .join j => (n + 7) * (nseg - s.i) + (n + 1 - j)
    | _ => 0) + (s.pool.map remOf).sum

theorem filterMap_set (f : Option (ℕ × WPhase V) → Option ℕ) (l : List (Option (ℕ × WPhase V))) (j : ℕ)
    (x y : Option (ℕ × WPhase V)) (h : l[j]? = some x) :
    ((l.set j y).filterMap f).Perm ((f y).toList ++ (l.eraseIdx j).filterMap f) ∧
    (l.filterMap f).Perm ((f x).toList ++ (l.eraseIdx j).filterMap f) := by
  obtain ⟨hj, hx⟩ := List.getElem?_eq_some_iff.mp h
  have h1 := List.set_perm_cons_eraseIdx hj y
  have h2 := List.getElem_cons_eraseIdx_perm hj
  have e : ∀ (z : Option (ℕ × WPhase V)) (t : List (Option (ℕ × WPhase V))),
      (z :: t).filterMap f = (f z).toList ++ t.filterMap f := by
    intro z t; rw [List.filterMap_cons]; cases f z <;> rfl
  constructor
  · rw [← e]; exact h1.filterMap f
  · rw [← e]; rw [hx] at h2; exact (h2.filterMap f).symm

theorem sum_set (l : List (Option (ℕ × WPhase V))) (j : ℕ) (x y : Option (ℕ × WPhase V))
    (h : l[j]? = some x) :
    ((l.set j y).map remOf).sum + remOf x = (l.map remOf).sum + remOf y := by
  obtain ⟨hj, hx⟩ := List.getElem?_eq_some_iff.mp h
  have h1 := ((List.set_perm_cons_eraseIdx hj y).map remOf).sum_eq
  have h2 := ((List.getElem_cons_eraseIdx_perm hj).map remOf).sum_eq
  rw [hx] at h2
  simp only [List.map_cons, List.sum_cons] at h1 h2
  omega

theorem get_set (l : List (Option (ℕ × WPhase V))) (j m : ℕ) (y : Option (ℕ × WPhase V))
    (hj : j < l.length) : (l.set j y)[m]? = if m = j then some y else l[m]? := by
  by_cases h : m = j
  · subst h; rw [if_pos rfl, List.getElem?_set_self hj]
  · rw [if_neg h, List.getElem?_set_ne (Ne.symm h)]

variable [Add V] {n nseg : ℕ} {seg : ℕ → V} {zero : V}

theorem inv_init (n nseg : ℕ) (seg : ℕ → V) (zero : V) : Inv n nseg seg zero (MT.init n nseg zero) := by
  have hp : ∀ k, k < n → (List.replicate n (none : Option (ℕ × WPhase V)))[k]? = some none := by
    intro k hk; simp [hk]
  have hno : ∀ (j k : ℕ) (ph : WPhase V), (List.replicate n (none : Option (ℕ × WPhase V)))[j]? ≠ some (some (k, ph)) := by
    intro j k ph h
    rw [List.getElem?_replicate] at h
    split at h <;> simp at h
  refine ⟨by simp [MT.init], by simp [MT.init], ?_, ?_, ?_, ?_, ⟨[], rfl, ?_⟩⟩
  · unfold ctrlOk MT.init
    by_cases h : 0 < nseg
    · simp only [h, if_true]; exact ⟨trivial, Nat.zero_le _, fun k _ hk => hp k hk⟩
    · simp only [h, if_false]; exact ⟨by omega, hp⟩
  · intro j k ph h; exact absurd h (hno j k ph)
  · intro j h; simp [MT.init] at h
  · intro j k ph h; exact absurd h (hno j k ph)
  · have : (List.replicate n (none : Option (ℕ × WPhase V))).filterMap pendingOf = [] := by
      rw [List.filterMap_eq_nil_iff]
      intro a ha
      rw [List.mem_replicate] at ha
      rw [ha.2]; rfl
    simp [MT.init, this]

omit [Add V] in
theorem all_none_of (s : MT V) (hl : s.pool.length = n) (h : ∀ k, k < n → s.pool[k]? = some none) :
    s.pool.all (·.isNone) = true := by
  rw [List.all_eq_true]
  intro x hx
  obtain ⟨k, hk, rfl⟩ := List.getElem_of_mem hx
  have := h k (by omega)
  rw [List.getElem?_eq_getElem hk] at this
  rw [Option.some.inj this]; rfl

theorem inv_main {s s' : MT V} (hn : 1 ≤ n) (hi : Inv n nseg seg zero s)
    (hs : s.stepMain nseg = some s') :
    Inv n nseg seg zero s' ∧ measure n nseg s' < measure n nseg s := by
  obtain ⟨len, ile, ctrl, lock1, lock2, vals, ord, hres, hperm⟩ := hi
  obtain ⟨pc, i, pool, lock, res⟩ := s
  simp only at *
  cases pc with
  | spawn j =>
    simp only [ctrlOk] at ctrl
    obtain ⟨hlt, hj, hnone⟩ := ctrl
    simp only [stepMain] at hs
    by_cases hjn : j < n
    · have hget := hnone j (le_refl j) hjn
      rw [hget] at hs
      simp only at hs
      have hjl : j < pool.length := by omega
      have hpend := filterMap_set pendingOf pool j none (some (i, .start)) hget
      have hsum := sum_set pool j none (some (i, .start)) hget
      simp only [remOf] at hsum
      have hperm' : (ord ++ (pool.set j (some (i, .start))).filterMap pendingOf).Perm
          (List.range (i + 1)) := by
        rw [List.range_succ]
        have a1 := hpend.1
        have a2 := hpend.2
        simp only [pendingOf, Option.toList_some, Option.toList_none, List.nil_append] at a1 a2
        have : ([i] ++ (pool.eraseIdx j).filterMap pendingOf).Perm
            (pool.filterMap pendingOf ++ [i]) :=
          (List.Perm.append_left [i] a2.symm).trans List.perm_append_comm
        have b := (List.Perm.append_left ord (a1.trans this))
        rw [← List.append_assoc] at b
        exact b.trans (List.Perm.append_right [i] hperm)
      have hctrlget : ∀ m, (pool.set j (some (i, WPhase.start)))[m]? =
          if m = j then some (some (i, .start)) else pool[m]? :=
        fun m => get_set pool j m _ hjl
      have common : ∀ pc', ctrlOk n nseg (⟨pc', i + 1, pool.set j (some (i, .start)), lock, res⟩ : MT V) →
          Inv n nseg seg zero (⟨pc', i + 1, pool.set j (some (i, .start)), lock, res⟩ : MT V) := by
        intro pc' hc
        refine ⟨by simpa using len, by simp only; omega, hc, ?_, ?_, ?_, ⟨ord, hres, hperm'⟩⟩
        · intro m k ph h hh
          simp only [hctrlget] at h
          split at h
          · simp only [Option.some.injEq, Prod.mk.injEq] at h
            rw [← h.2] at hh; exact absurd hh (by simp [holds])
          · exact lock1 m k ph h hh
        · intro m hm
          obtain ⟨k, ph, h1, h2⟩ := lock2 m hm
          refine ⟨k, ph, ?_, h2⟩
          simp only [hctrlget]
          rw [if_neg]
          · exact h1
          · rintro rfl; rw [hget] at h1; simp at h1
        · intro m k ph h
          simp only [hctrlget] at h
          split at h
          · simp only [Option.some.injEq, Prod.mk.injEq] at h
            rw [← h.2]; trivial
          · exact vals m k ph h
      split at hs
      · rename_i hge
        obtain rfl := (Option.some.inj hs).symm
        refine ⟨common _ ⟨Nat.zero_le _, fun k hk => absurd hk (by omega)⟩, ?_⟩
        simp only [measure]
        have : nseg - i = (nseg - (i + 1)) + 1 := by omega
        rw [this, Nat.mul_add]
        split <;> omega
      · rename_i hge
        obtain rfl := (Option.some.inj hs).symm
        refine ⟨common _ ⟨by simp only; omega, by omega, ?_⟩, ?_⟩
        · intro k h1 h2
          simp only [hctrlget]
          rw [if_neg (by omega)]
          exact hnone k (by omega) h2
        · simp only [measure]
          have : nseg - i = (nseg - (i + 1)) + 1 := by omega
          rw [this, Nat.mul_add, if_neg (by omega)]
          split <;> omega
    · have hget : pool[j]? = none := List.getElem?_eq_none (by omega)
      rw [hget] at hs
      obtain rfl := (Option.some.inj hs).symm
      refine ⟨⟨len, ile, ⟨Nat.zero_le _, fun k hk => absurd hk (by omega)⟩, lock1, lock2, vals,
        ⟨ord, hres, hperm⟩⟩, ?_⟩
      simp only [measure]
      rw [if_neg (by omega)]; omega
  | join j =>
    simp only [ctrlOk] at ctrl
    obtain ⟨hj, hnone⟩ := ctrl
    simp only [stepMain] at hs
    by_cases hjn : j < n
    · have hjl : j < pool.length := by omega
      have hget : pool[j]? = some pool[j] := List.getElem?_eq_getElem hjl
      rw [hget] at hs
      rcases hslot : pool[j] with _ | ⟨k0, ph0⟩
      · rw [hslot] at hs hget
        obtain rfl := (Option.some.inj hs).symm
        refine ⟨⟨len, ile, ⟨by omega, ?_⟩, lock1, lock2, vals, ⟨ord, hres, hperm⟩⟩, ?_⟩
        · intro k hk
          rcases Nat.lt_succ_iff_lt_or_eq.mp hk with h | h
          · exact hnone k h
          · subst h; exact hget
        · simp only [measure]; omega
      · rw [hslot] at hs hget
        cases ph0 with
        | finished =>
          obtain rfl := (Option.some.inj hs).symm
          have hpend := filterMap_set pendingOf pool j (some (k0, .finished)) none hget
          have hsum := sum_set pool j (some (k0, .finished)) none hget
          simp only [remOf] at hsum
          have hset : ∀ m, (pool.set j none)[m]? = if m = j then some none else pool[m]? :=
            fun m => get_set pool j m _ hjl
          refine ⟨⟨by simpa using len, ile, ⟨by omega, ?_⟩, ?_, ?_, ?_, ⟨ord, hres, ?_⟩⟩, ?_⟩
          · intro k hk
            simp only [hset]
            split
            · rfl
            · exact hnone k (by omega)
          · intro m k ph h hh
            simp only [hset] at h
            split at h
            · simp at h
            · exact lock1 m k ph h hh
          · intro m hm
            obtain ⟨k, ph, h1, h2⟩ := lock2 m hm
            refine ⟨k, ph, ?_, h2⟩
            simp only [hset]
            rw [if_neg]
            · exact h1
            · rintro rfl; rw [hget] at h1
              simp only [Option.some.injEq, Prod.mk.injEq] at h1
              rw [← h1.2] at h2; exact h2
          · intro m k ph h
            simp only [hset] at h
            split at h
            · simp at h
            · exact vals m k ph h
          · have a1 := hpend.1
            have a2 := hpend.2
            simp only [pendingOf, Option.toList_none, List.nil_append] at a1 a2
            exact (List.Perm.append_left ord (a1.trans a2.symm)).trans hperm
          · simp only [measure]; omega
        | start => simp at hs
        | computed v => simp at hs
        | locked v => simp at hs
        | loaded v r => simp at hs
    · have hjn' : j = n := by omega
      have hget : pool[j]? = none := List.getElem?_eq_none (by omega)
      rw [hget] at hs
      simp only at hs
      have hall : ∀ k, k < n → pool[k]? = some none := fun k hk => hnone k (by omega)
      split at hs
      · rename_i hlt
        obtain rfl := (Option.some.inj hs).symm
        refine ⟨⟨len, ile, ⟨hlt, Nat.zero_le _, fun k _ hk => hall k hk⟩, lock1, lock2, vals,
          ⟨ord, hres, hperm⟩⟩, ?_⟩
        simp only [measure, if_true]; omega
      · rename_i hge
        have hnone' := all_none_of (⟨.done, i, pool, lock, res⟩ : MT V) len hall
        simp only at hnone'
        rw [if_pos hnone'] at hs
        obtain rfl := (Option.some.inj hs).symm
        refine ⟨⟨len, ile, ⟨by simp only; omega, hall⟩, lock1, lock2, vals, ⟨ord, hres, hperm⟩⟩, ?_⟩
        simp only [measure]
        have : nseg - i = 0 := by omega
        rw [this]; omega
  | done => simp [stepMain] at hs
  | crashed => simp [stepMain] at hs

theorem inv_worker {s s' : MT V} (j : ℕ) (hi : Inv n nseg seg zero s)
    (hs : s.stepWorker seg j = some s') :
    Inv n nseg seg zero s' ∧ measure n nseg s' < measure n nseg s := by
  obtain ⟨len, ile, ctrl, lock1, lock2, vals, ord, hres, hperm⟩ := hi
  obtain ⟨pc, i, pool, lock, res⟩ := s
  simp only at *
  simp only [stepWorker] at hs
  rcases hget : pool[j]? with _ | _ | ⟨k, ph⟩
  · rw [hget] at hs; simp at hs
  · rw [hget] at hs; simp at hs
  rw [hget] at hs
  have hjl : j < pool.length := (List.getElem?_eq_some_iff.mp hget).1
  have hset : ∀ (y : Option (ℕ × WPhase V)) m, (pool.set j y)[m]? = if m = j then some y else pool[m]? :=
    fun y m => get_set pool j m y hjl
  -- the control invariant does not look at occupied slots
  have hctrl : ∀ (ph' : WPhase V) (lock' : Option ℕ) (res' : V),
      ctrlOk n nseg (⟨pc, i, pool.set j (some (k, ph')), lock', res'⟩ : MT V) := by
    intro ph' lock' res'
    have hne : ∀ m : ℕ, pool[m]? = some none → (pool.set j (some (k, ph')))[m]? = some none := by
      intro m hm
      rw [hset, if_neg]
      · exact hm
      · rintro rfl; rw [hget] at hm; simp at hm
    cases pc with
    | spawn a => exact ⟨ctrl.1, ctrl.2.1, fun m h1 h2 => hne m (ctrl.2.2 m h1 h2)⟩
    | join a => exact ⟨ctrl.1, fun m h1 => hne m (ctrl.2 m h1)⟩
    | done => exact ⟨ctrl.1, fun m h1 => hne m (ctrl.2 m h1)⟩
    | crashed => exact ctrl
  have hmeas : ∀ (ph' : WPhase V) (lock' : Option ℕ) (res' : V),
      remOf (some (k, ph')) < remOf (some (k, ph)) →
      measure n nseg (⟨pc, i, pool.set j (some (k, ph')), lock', res'⟩ : MT V)
        < measure n nseg (⟨pc, i, pool, lock, res⟩ : MT V) := by
    intro ph' lock' res' h
    have := sum_set pool j (some (k, ph)) (some (k, ph')) hget
    simp only [measure]; omega
  have hpend : ∀ ph' : WPhase V, pendingOf (some (k, ph')) = pendingOf (some (k, ph)) →
      (ord ++ (pool.set j (some (k, ph'))).filterMap pendingOf).Perm (List.range i) := by
    intro ph' he
    obtain ⟨a1, a2⟩ := filterMap_set pendingOf pool j (some (k, ph)) (some (k, ph')) hget
    rw [he] at a1
    exact (List.Perm.append_left ord (a1.trans a2.symm)).trans hperm
  cases ph with
  | start =>
    obtain rfl := (Option.some.inj hs).symm
    refine ⟨⟨by simpa using len, ile, hctrl _ _ _, ?_, ?_, ?_, ⟨ord, hres, hpend _ rfl⟩⟩, hmeas _ _ _ (by simp [remOf])⟩
    · intro m k' ph' h hh
      simp only [hset] at h
      split at h
      · simp only [Option.some.injEq, Prod.mk.injEq] at h; rw [← h.2] at hh; exact absurd hh (by simp [holds])
      · exact lock1 m k' ph' h hh
    · intro m hm
      obtain ⟨k', ph', h1, h2⟩ := lock2 m hm
      refine ⟨k', ph', ?_, h2⟩
      simp only [hset]
      rw [if_neg]
      · exact h1
      · rintro rfl; rw [hget] at h1; simp only [Option.some.injEq, Prod.mk.injEq] at h1
        rw [← h1.2] at h2; exact h2
    · intro m k' ph' h
      simp only [hset] at h
      split at h
      · simp only [Option.some.injEq, Prod.mk.injEq] at h; rw [← h.2, ← h.1]; rfl
      · exact vals m k' ph' h
  | computed v =>
    have hv := vals j k _ hget
    simp only [valOk] at hv
    simp only at hs
    split at hs
    · rename_i hl
      obtain rfl := (Option.some.inj hs).symm
      refine ⟨⟨by simpa using len, ile, hctrl _ _ _, ?_, ?_, ?_, ⟨ord, hres, hpend _ rfl⟩⟩, hmeas _ _ _ (by simp [remOf])⟩
      · intro m k' ph' h hh
        simp only [hset] at h
        split at h
        · rename_i hm; rw [hm]
        · have := lock1 m k' ph' h hh
          rw [hl] at this; simp at this
      · intro m hm
        have : m = j := by simpa using hm.symm
        subst this
        exact ⟨k, .locked v, by simp only [hset, if_true], trivial⟩
      · intro m k' ph' h
        simp only [hset] at h
        split at h
        · simp only [Option.some.injEq, Prod.mk.injEq] at h; rw [← h.2, ← h.1]; exact hv
        · exact vals m k' ph' h
    · simp at hs
  | locked v =>
    have hv := vals j k _ hget
    simp only [valOk] at hv
    have hl := lock1 j k _ hget trivial
    obtain rfl := (Option.some.inj hs).symm
    refine ⟨⟨by simpa using len, ile, hctrl _ _ _, ?_, ?_, ?_, ⟨ord, hres, hpend _ rfl⟩⟩, hmeas _ _ _ (by simp [remOf])⟩
    · intro m k' ph' h hh
      simp only [hset] at h
      split at h
      · rename_i hm; rw [hm]; exact hl
      · exact lock1 m k' ph' h hh
    · intro m hm
      have : m = j := by rw [hl] at hm; simpa using hm.symm
      subst this
      exact ⟨k, .loaded v res, by simp only [hset, if_true], trivial⟩
    · intro m k' ph' h
      simp only [hset] at h
      split at h
      · simp only [Option.some.injEq, Prod.mk.injEq] at h; rw [← h.2, ← h.1]; exact ⟨hv, rfl⟩
      · exact vals m k' ph' h
  | loaded v r =>
    have hv := vals j k _ hget
    simp only [valOk] at hv
    have hl := lock1 j k _ hget trivial
    obtain rfl := (Option.some.inj hs).symm
    -- no other worker holds the lock
    have hother : ∀ m k' ph', m ≠ j → pool[m]? = some (some (k', ph')) → ¬ holds ph' := by
      intro m k' ph' hm h hh
      have := lock1 m k' ph' h hh
      rw [hl] at this
      exact hm (by simpa using this.symm)
    refine ⟨⟨by simpa using len, ile, hctrl _ _ _, ?_, ?_, ?_, ⟨ord ++ [k], ?_, ?_⟩⟩, hmeas _ _ _ (by simp [remOf])⟩
    · intro m k' ph' h hh
      simp only [hset] at h
      split at h
      · simp only [Option.some.injEq, Prod.mk.injEq] at h; rw [← h.2] at hh; exact absurd hh (by simp [holds])
      · rename_i hm; exact absurd hh (hother m k' ph' hm h)
    · intro m hm; simp at hm
    · intro m k' ph' h
      simp only [hset] at h
      split at h
      · simp only [Option.some.injEq, Prod.mk.injEq] at h; rw [← h.2]; trivial
      · rename_i hm
        have h1 := vals m k' ph' h
        have h2 := hother m k' ph' hm h
        cases ph' with
        | loaded a b => exact absurd trivial h2
        | locked a => exact absurd trivial h2
        | computed a => exact h1
        | start => trivial
        | finished => trivial
    · simp only [List.foldl_append, List.foldl_cons, List.foldl_nil]
      rw [hv.1, hv.2, hres]
    · obtain ⟨a1, a2⟩ := filterMap_set pendingOf pool j (some (k, .loaded v r)) (some (k, .finished)) hget
      simp only [pendingOf, Option.toList_none, List.nil_append, Option.toList_some] at a1 a2
      rw [List.append_assoc]
      exact (List.Perm.append_left ord ((List.Perm.append_left [k] a1).trans a2.symm)).trans hperm
  | finished => simp at hs

theorem inv_step {s s' : MT V} (hn : 1 ≤ n) (hi : Inv n nseg seg zero s) (hs : Step nseg seg s s') :
    Inv n nseg seg zero s' ∧ measure n nseg s' < measure n nseg s := by
  cases hs with
  | main h => exact inv_main hn hi h
  | worker j h => exact inv_worker j hi h

/-- No deadlock: unless main has returned, some thread can move. -/
theorem progress {s : MT V} (hi : Inv n nseg seg zero s) (hd : s.pc ≠ .done) :
    ∃ s', Step nseg seg s s' := by
  obtain ⟨len, ile, ctrl, lock1, lock2, vals, _⟩ := hi
  obtain ⟨pc, i, pool, lock, res⟩ := s
  simp only at *
  cases pc with
  | done => exact absurd rfl hd
  | crashed => exact ctrl.elim
  | spawn j =>
    obtain ⟨s', hs'⟩ : ∃ s', stepMain nseg (⟨.spawn j, i, pool, lock, res⟩ : MT V) = some s' := by
      simp only [stepMain]
      rcases pool[j]? with _ | _ | _
      · exact ⟨_, rfl⟩
      · simp only; split <;> exact ⟨_, rfl⟩
      · exact ⟨_, rfl⟩
    exact ⟨s', .main hs'⟩
  | join j =>
    rcases hget : pool[j]? with _ | _ | ⟨k, ph⟩
    · have : ∃ s', stepMain nseg (⟨.join j, i, pool, lock, res⟩ : MT V) = some s' := by
        simp only [stepMain, hget]; split
        · exact ⟨_, rfl⟩
        · split <;> exact ⟨_, rfl⟩
      exact this.imp fun _ h => .main h
    · have : ∃ s', stepMain nseg (⟨.join j, i, pool, lock, res⟩ : MT V) = some s' := by
        simp only [stepMain, hget]; exact ⟨_, rfl⟩
      exact this.imp fun _ h => .main h
    · -- a worker holding the lock can always move; otherwise worker j can
      by_cases hl : lock = none
      · cases ph with
        | start => exact ⟨_, .worker j (by simp only [stepWorker, hget]; rfl)⟩
        | computed v => exact ⟨_, .worker j (by simp only [stepWorker, hget, if_pos hl]; rfl)⟩
        | locked v => exact ⟨_, .worker j (by simp only [stepWorker, hget]; rfl)⟩
        | loaded v r => exact ⟨_, .worker j (by simp only [stepWorker, hget]; rfl)⟩
        | finished => exact ⟨_, .main (by simp only [stepMain, hget]; rfl)⟩
      · obtain ⟨m, hm⟩ := Option.ne_none_iff_exists'.mp hl
        obtain ⟨k', ph', h1, h2⟩ := lock2 m hm
        cases ph' with
        | locked v => exact ⟨_, .worker m (by simp only [stepWorker, h1]; rfl)⟩
        | loaded v r => exact ⟨_, .worker m (by simp only [stepWorker, h1]; rfl)⟩
        | start => exact h2.elim
        | computed v => exact h2.elim
        | finished => exact h2.elim

theorem inv_reach {s t : MT V} {k : ℕ} (hn : 1 ≤ n) (hi : Inv n nseg seg zero s)
    (h : Reach nseg seg s t k) : Inv n nseg seg zero t ∧ measure n nseg t + k ≤ measure n nseg s := by
  induction h with
  | refl => exact ⟨hi, le_refl _⟩
  | step _ hs ih =>
    obtain ⟨h1, h2⟩ := inv_step hn ih.1 hs
    exact ⟨h1, by omega⟩

end MT
end SciCpp
