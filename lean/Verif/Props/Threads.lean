import Verif.Proofs.Threads
import Verif.Model.F64
import Mathlib.Data.Multiset.Range
import Mathlib.Algebra.Order.Group.Multiset
/-
  C50 — the multithreaded accumulation of segments (scicpp/signal/spectral.hpp:327-371).
-/
namespace SciCpp

open MT

variable {V : Type}

section Any

variable [Add V] {n nseg : ℕ} {seg : ℕ → V} {zero : V} {t : MT V} {k : ℕ}

/-- C50, safety: with at least one thread, no schedule reaches `std::terminate` (assignment to, or
destruction of, a joinable thread), at most `n` threads exist, and at most one worker is inside the
critical section. -/
theorem C50_never_terminates_abnormally (hn : 1 ≤ n) (h : Reach nseg seg (MT.init n nseg zero) t k) :
    t.pc ≠ .crashed ∧ t.pool.length = n ∧
    ∀ (a b : ℕ) (i j : ℕ) (v v' r r' : V),
      (t.pool[a]? = some (some (i, .loaded v r)) ∨ t.pool[a]? = some (some (i, .locked v))) →
      (t.pool[b]? = some (some (j, .loaded v' r')) ∨ t.pool[b]? = some (some (j, .locked v'))) →
      a = b := by
  obtain ⟨hi, _⟩ := inv_reach hn (inv_init n nseg seg zero) h
  refine ⟨fun hc => ?_, hi.len, fun a b i j v v' r r' h1 h2 => ?_⟩
  · have := hi.ctrl
    unfold ctrlOk at this
    rw [hc] at this
    exact this
  · have e1 : t.lock = some a := by
      rcases h1 with h1 | h1 <;> exact hi.lock1 a i _ h1 trivial
    have e2 : t.lock = some b := by
      rcases h2 with h2 | h2 <;> exact hi.lock1 b j _ h2 trivial
    rw [e1] at e2; exact Option.some.inj e2

/-- C50, no deadlock: in every reachable state in which the call has not returned, some thread can
move. -/
theorem C50_no_deadlock (hn : 1 ≤ n) (h : Reach nseg seg (MT.init n nseg zero) t k)
    (hd : t.pc ≠ .done) : ∃ t', Step nseg seg t t' :=
  progress (inv_reach hn (inv_init n nseg seg zero) h).1 hd

/-- C50, termination: no schedule is longer than `(n + 7) * nseg` steps (hence, with the absence of
deadlocks, every schedule that cannot be extended has returned). -/
theorem C50_terminates (hn : 1 ≤ n) (h : Reach nseg seg (MT.init n nseg zero) t k) :
    k ≤ (n + 7) * nseg := by
  obtain ⟨_, hm⟩ := inv_reach hn (inv_init n nseg seg zero) h
  have h0 : ((List.replicate n (none : Option (ℕ × WPhase V))).map remOf).sum = 0 := by
    rw [List.map_replicate, List.sum_replicate]; simp [remOf]
  have : MT.measure n nseg (MT.init n nseg zero) ≤ (n + 7) * nseg := by
    unfold MT.measure MT.init
    by_cases hs : 0 < nseg
    · simp only [hs, if_true, h0]; simp
    · simp only [hs, if_false, h0]; simp
  omega

/-- C50: whatever the schedule and whatever the addition (associative or not), when the call returns
every thread has been joined and the result is the sum of all segments, each exactly once, in some
order. -/
theorem C50_result (hn : 1 ≤ n) (h : Reach nseg seg (MT.init n nseg zero) t k) (hd : t.pc = .done) :
    t.pool = List.replicate n none ∧ t.lock = none ∧
    ∃ ord : List ℕ, ord.Perm (List.range nseg) ∧
      t.res = ord.foldl (fun acc i => acc + seg i) zero := by
  obtain ⟨hi, _⟩ := inv_reach hn (inv_init n nseg seg zero) h
  have hc := hi.ctrl
  unfold ctrlOk at hc
  rw [hd] at hc
  have hp : t.pool = List.replicate n none := by
    apply List.ext_getElem?
    intro j
    rcases Nat.lt_or_ge j n with hj | hj
    · rw [hc.2 j hj]; simp [hj]
    · rw [List.getElem?_eq_none (by rw [hi.len]; exact hj), List.getElem?_eq_none (by simpa using hj)]
  refine ⟨hp, ?_, ?_⟩
  · rcases hl : t.lock with _ | j
    · rfl
    · obtain ⟨k, ph, h1, _⟩ := hi.lock2 j hl
      rw [hp, List.getElem?_replicate] at h1
      split at h1 <;> simp at h1
  · obtain ⟨ord, h1, h2⟩ := hi.order
    refine ⟨ord, ?_, h1⟩
    rw [hp, hc.1] at h2
    have : (List.replicate n (none : Option (ℕ × WPhase V))).filterMap pendingOf = [] := by
      rw [List.filterMap_eq_nil_iff]
      intro a ha
      rw [List.mem_replicate] at ha
      rw [ha.2]; rfl
    rwa [this, List.append_nil] at h2

end Any

/-- C50: if addition is commutative and associative, the result of every schedule is the sequential
sum. -/
theorem C50_eq_sequential [AddCommSemigroup V] {n nseg : ℕ} {seg : ℕ → V} {zero : V} {t : MT V}
    {k : ℕ} (hn : 1 ≤ n) (h : Reach nseg seg (MT.init n nseg zero) t k) (hd : t.pc = .done) :
    t.res = seqSum nseg seg zero := by
  obtain ⟨_, _, ord, h1, h2⟩ := C50_result hn h hd
  rw [h2]
  have : RightCommutative (fun (acc : V) (i : ℕ) => acc + seg i) := ⟨fun a b c => add_right_comm _ _ _⟩
  exact h1.foldl_eq _

/-- C50: two complete schedules, even with different numbers of threads, agree. -/
theorem C50_schedule_independent [AddCommSemigroup V] {n n' nseg : ℕ} {seg : ℕ → V} {zero : V}
    {t t' : MT V} {k k' : ℕ} (hn : 1 ≤ n) (hn' : 1 ≤ n')
    (h : Reach nseg seg (MT.init n nseg zero) t k) (h' : Reach nseg seg (MT.init n' nseg zero) t' k')
    (hd : t.pc = .done) (hd' : t'.pc = .done) : t.res = t'.res := by
  rw [C50_eq_sequential hn h hd, C50_eq_sequential hn' h' hd']

/-- C50: every segment is accumulated exactly once (recording in a multiset which segments were
added). -/
theorem C50_each_segment_once {n nseg : ℕ} {t : MT (Multiset ℕ)} {k : ℕ} (hn : 1 ≤ n)
    (h : Reach nseg (fun i => {i}) (MT.init n nseg 0) t k) (hd : t.pc = .done) :
    t.res = Multiset.range nseg := by
  rw [C50_eq_sequential hn h hd]
  unfold seqSum
  clear h hd hn
  induction nseg with
  | zero => rfl
  | succ m ih =>
    rw [List.range_succ, List.foldl_append, ih, Multiset.range_succ]
    show Multiset.range m + {m} = _
    rw [add_comm, Multiset.singleton_add]

/-- An array with the element-wise sum (`operator+` of two arrays of one size). -/
def Arr (K : Type) := List K

/-- Element-wise sum. -/
instance {K : Type} [AddCommSemigroup K] : AddCommSemigroup (Arr K) where
  add a b := List.zipWith (· + ·) a b
  add_comm a b := by
    show List.zipWith (· + ·) a b = List.zipWith (· + ·) b a
    induction a generalizing b with
    | nil => cases b <;> rfl
    | cons x a ih =>
      cases b with
      | nil => rfl
      | cons y b =>
        simp only [List.zipWith_cons_cons, add_comm]
        exact congrArg _ (ih b)
  add_assoc a b c := by
    show List.zipWith (· + ·) (List.zipWith (· + ·) a b) c = List.zipWith (· + ·) a (List.zipWith (· + ·) b c)
    induction a generalizing b c with
    | nil => cases b <;> cases c <;> rfl
    | cons x a ih =>
      cases b with
      | nil => rfl
      | cons y b =>
        cases c with
        | nil => rfl
        | cons z c =>
          simp only [List.zipWith_cons_cons, add_assoc]
          exact congrArg _ (ih b c)

/-! ### Complete schedules exist, and rounding makes the order visible -/

/-- Thread `0` is the main thread, thread `j + 1` the worker in slot `j`; run a schedule. -/
def MT.runSched [Add V] (nseg : ℕ) (seg : ℕ → V) : List ℕ → MT V → Option (MT V)
  | [], s => some s
  | 0 :: l, s => (s.stepMain nseg).bind (MT.runSched nseg seg l)
  | (j + 1) :: l, s => (s.stepWorker seg j).bind (MT.runSched nseg seg l)

theorem reach_trans [Add V] {nseg : ℕ} {seg : ℕ → V} {s t u : MT V} {a b : ℕ}
    (h1 : Reach nseg seg s t a) (h2 : Reach nseg seg t u b) : Reach nseg seg s u (a + b) := by
  induction h2 with
  | refl => exact h1
  | step _ hs ih => exact .step ih hs

theorem runSched_reach [Add V] {nseg : ℕ} {seg : ℕ → V} (l : List ℕ) (s t : MT V)
    (h : MT.runSched nseg seg l s = some t) : Reach nseg seg s t l.length := by
  induction l generalizing s with
  | nil => simp only [MT.runSched, Option.some.injEq] at h; subst h; exact .refl
  | cons a l ih =>
    cases a with
    | zero =>
      simp only [MT.runSched, Option.bind_eq_some_iff] at h
      obtain ⟨m, h1, h2⟩ := h
      have := reach_trans (Reach.step .refl (Step.main h1)) (ih m h2)
      rwa [List.length_cons, Nat.add_comm, ← Nat.zero_add 1]
    | succ j =>
      simp only [MT.runSched, Option.bind_eq_some_iff] at h
      obtain ⟨m, h1, h2⟩ := h
      have := reach_trans (Reach.step .refl (Step.worker j h1)) (ih m h2)
      rwa [List.length_cons, Nat.add_comm, ← Nat.zero_add 1]

theorem exists_done_aux [Add V] {n nseg : ℕ} {seg : ℕ → V} {zero : V} (hn : 1 ≤ n) (m : ℕ) :
    ∀ (t : MT V) (k : ℕ), Reach nseg seg (MT.init n nseg zero) t k → MT.measure n nseg t ≤ m →
      ∃ u k', Reach nseg seg t u k' ∧ u.pc = .done := by
  induction m with
  | zero =>
    intro t k h hm
    obtain ⟨hi, _⟩ := inv_reach hn (inv_init n nseg seg zero) h
    by_cases hd : t.pc = .done
    · exact ⟨t, 0, .refl, hd⟩
    · obtain ⟨t', hs⟩ := progress hi hd
      have := (inv_step hn hi hs).2
      omega
  | succ m ih =>
    intro t k h hm
    obtain ⟨hi, _⟩ := inv_reach hn (inv_init n nseg seg zero) h
    by_cases hd : t.pc = .done
    · exact ⟨t, 0, .refl, hd⟩
    · obtain ⟨t', hs⟩ := progress hi hd
      obtain ⟨u, k', h1, h2⟩ := ih t' _ (.step h hs) (by have := (inv_step hn hi hs).2; omega)
      exact ⟨u, 1 + k', by simpa using reach_trans (.step .refl hs) h1, h2⟩

/-- C50: from every reachable state the call can still return (in particular complete schedules exist
for every number of segments and threads). -/
theorem C50_can_return [Add V] {n nseg : ℕ} {seg : ℕ → V} {zero : V} {t : MT V} {k : ℕ} (hn : 1 ≤ n)
    (h : Reach nseg seg (MT.init n nseg zero) t k) :
    ∃ u k', Reach nseg seg t u k' ∧ u.pc = .done :=
  exists_done_aux hn _ t k h (le_refl _)

/-- Three segments `1, 1, 2^53` (one bin each). -/
def roundSeg : ℕ → F64 := fun i => if i = 2 then (Fl.fin (2 ^ 53) : F64) else 1

/-- C50 is about exact addition: with binary64 rounding two schedules of the same computation with
three threads return different sums. -/
theorem C50_rounding_order_visible :
    ∃ (t t' : MT F64) (k k' : ℕ),
      Reach 3 roundSeg (MT.init 3 3 0) t k ∧ Reach 3 roundSeg (MT.init 3 3 0) t' k' ∧
      t.pc = .done ∧ t'.pc = .done ∧
      t.res = (Fl.fin (2 ^ 53 + 2) : F64) ∧ t'.res = (Fl.fin (2 ^ 53) : F64) := by
  have h1 : (MT.runSched (V := F64) 3 roundSeg
      [0, 0, 0, 1, 1, 1, 1, 2, 2, 2, 2, 3, 3, 3, 3, 0, 0, 0, 0] (MT.init 3 3 0)).map
        (fun t => (t.pc, t.res)) = some ((.done, (Fl.fin (2 ^ 53 + 2) : F64)) : MainPc × F64) := by decide +kernel
  have h2 : (MT.runSched (V := F64) 3 roundSeg
      [0, 0, 0, 3, 3, 3, 3, 1, 1, 1, 1, 2, 2, 2, 2, 0, 0, 0, 0] (MT.init 3 3 0)).map
        (fun t => (t.pc, t.res)) = some ((.done, (Fl.fin (2 ^ 53) : F64)) : MainPc × F64) := by decide +kernel
  obtain ⟨t, a1, a2⟩ := Option.map_eq_some_iff.mp h1
  obtain ⟨t', b1, b2⟩ := Option.map_eq_some_iff.mp h2
  exact ⟨t, t', _, _, runSched_reach _ _ _ a1, runSched_reach _ _ _ b1, (Prod.mk.inj a2).1,
    (Prod.mk.inj b2).1, (Prod.mk.inj a2).2, (Prod.mk.inj b2).2⟩

/-- Non-vacuity: a complete interleaved schedule of two threads and three segments. -/
example : ((MT.runSched 3 (fun i => 10 ^ i) 
    [0, 0, 2, 1, 2, 2, 2, 1, 1, 1, 0, 0, 0, 0, 0, 1, 1, 1, 1, 0, 0, 0]
    (MT.init 2 3 (0 : ℕ))).map fun t => (t.pc, t.res)) = some (.done, 111) := by decide

end SciCpp
