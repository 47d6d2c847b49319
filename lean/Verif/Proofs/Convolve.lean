import Verif.Model.Poly
import Verif.Spec.Poly
import Mathlib.Algebra.BigOperators.NatAntidiagonal
import Mathlib.Algebra.BigOperators.Intervals
import Mathlib.Tactic.Linarith
/-
  Correctness of the direct convolution loop.
-/
namespace SciCpp

open Finset Spec

variable {R : Type*}

theorem getD_of_lt [Zero R] (l : List R) (i : ℕ) (h : i < l.length) : l.getD i 0 = l[i] := by
  simp [h]

theorem getD_of_ge [Zero R] (l : List R) (i : ℕ) (h : l.length ≤ i) : l.getD i 0 = 0 := by
  simp [h]

/-- The inner loop computes the antidiagonal sum. -/
theorem convAt_eq [Semiring R] (a v : List R) (i : ℕ) (hi : i + 1 < a.length + v.length) :
    convAt a v i = .ok (∑ p ∈ antidiagonal i, a.getD p.1 0 * v.getD p.2 0) := by
  rw [Finset.Nat.sum_antidiagonal_eq_sum_range_succ (fun p q => a.getD p 0 * v.getD q 0) i]
  set n := a.length with hn
  set m := v.length with hm
  -- natural-number bounds
  set lo : ℕ := i + 1 - m with hlo
  set hi' : ℕ := min (i + 1) n with hhi
  have hjmn : (if (i : Int) ≥ (m : Int) - 1 then (i : Int) - ((m : Int) - 1) else 0) = (lo : Int) := by
    split_ifs <;> omega
  have hjmx : (if (i : Int) < (n : Int) - 1 then (i : Int) else (n : Int) - 1) = (hi' : Int) - 1 := by
    split_ifs <;> omega
  unfold convAt
  simp only [← hn, ← hm, hjmn, hjmx, forUp]
  have hcount : ((hi' : Int) - 1 + 1 - (lo : Int)).toNat = hi' - lo := by omega
  rw [hcount]
  obtain ⟨t, ht, hp⟩ := forN_inv (n := hi' - lo)
    (f := fun k acc => do
      let x ← rd a ((lo : Int) + (k : Int))
      let y ← rd v ((i : Int) - ((lo : Int) + (k : Int)))
      pure (acc + x * y)) (s := (0 : R))
    (fun k acc => acc = ∑ j ∈ Finset.range k, a.getD (lo + j) 0 * v.getD (i - (lo + j)) 0)
    (by simp) (by
      intro k hk t htk
      have h1 : lo + k < a.length := by omega
      have h2 : i - (lo + k) < v.length := by omega
      have e1 : ((lo : Int) + (k : Int)) = ((lo + k : ℕ) : Int) := by push_cast; rfl
      have e2 : ((i : Int) - ((lo + k : ℕ) : Int)) = ((i - (lo + k) : ℕ) : Int) := by omega
      refine ⟨t + a[lo + k] * v[i - (lo + k)], ?_, ?_⟩
      · simp only [e1, e2, rd_nat _ _ h1, rd_nat _ _ h2, Res.bind_ok, Res.pure_eq]
      · rw [Finset.sum_range_succ, ← htk, getD_of_lt _ _ h1, getD_of_lt _ _ h2])
  rw [ht, hp]
  congr 1
  -- compare the two sums
  rw [← Finset.sum_Ico_eq_sum_range (fun j => a.getD j 0 * v.getD (i - j) 0) lo hi']
  apply Finset.sum_subset
  · intro j hj
    simp only [Finset.mem_Ico, Finset.mem_range] at hj ⊢
    omega
  · intro j hj hnj
    simp only [Finset.mem_Ico, Finset.mem_range, not_and, not_lt] at hj hnj
    by_cases h : j < lo
    · rw [getD_of_ge v (i - j) (by omega), mul_zero]
    · rw [getD_of_ge a j (by omega), zero_mul]

theorem directConvolveImpl_eq [Semiring R] (a v : List R) (h : 1 ≤ a.length + v.length) :
    ∃ r, directConvolveImpl (List.replicate (a.length + v.length - 1) 0) a v = .ok r ∧
      r.length = a.length + v.length - 1 ∧
      ∀ i, i < a.length + v.length - 1 →
        r.getD i 0 = ∑ p ∈ antidiagonal i, a.getD p.1 0 * v.getD p.2 0 := by
  unfold directConvolveImpl
  have hreq : (((List.replicate (a.length + v.length - 1) (0 : R)).length : Int)
      == (a.length : Int) + (v.length : Int) - 1) = true := by
    rw [beq_iff_eq, List.length_replicate]; omega
  simp only [hreq, require_true, Res.bind_ok, forUp]
  have hcount : ((a.length : Int) + (v.length : Int) - 2 + 1 - 0).toNat
      = a.length + v.length - 1 := by omega
  rw [hcount]
  obtain ⟨t, ht, hl, hp⟩ := forN_inv (n := a.length + v.length - 1)
    (f := fun k r => do
      let x ← convAt a v (0 + (k : Int))
      wr r (0 + (k : Int)) x) (s := List.replicate (a.length + v.length - 1) (0 : R))
    (fun k r => r.length = a.length + v.length - 1 ∧
      ∀ i, i < k → r.getD i 0 = ∑ p ∈ antidiagonal i, a.getD p.1 0 * v.getD p.2 0)
    (by simp) (by
      rintro k hk t ⟨hl, hp⟩
      refine ⟨t.set k (∑ p ∈ antidiagonal k, a.getD p.1 0 * v.getD p.2 0), ?_, ?_, ?_⟩
      · simp only [zero_add, convAt_eq a v k (by omega), Res.bind_ok]
        rw [wr_nat _ _ _ (by omega)]
      · simp [hl]
      · intro i hi
        by_cases hik : i = k
        · subst hik
          rw [getD_of_lt _ _ (by simp; omega)]
          simp
        · have h1 : i < t.length := by omega
          rw [getD_of_lt _ _ (by simp; omega), List.getElem_set_ne (by omega), ← hp i (by omega),
            getD_of_lt _ _ h1])
  exact ⟨t, ht, hl, hp⟩

/-- Full description of `convolve`. -/
theorem convolve_spec [CommSemiring R] (a v : List R) (h : ¬ (a = [] ∧ v = [])) :
    ∃ r, convolve a v = .ok r ∧ r.length = a.length + v.length - 1 ∧
      ∀ i, i < a.length + v.length - 1 →
        r.getD i 0 = ∑ p ∈ antidiagonal i, a.getD p.1 0 * v.getD p.2 0 := by
  have hlen : 1 ≤ a.length + v.length := by
    rcases a with _ | ⟨x, a⟩
    · rcases v with _ | ⟨y, v⟩
      · simp at h
      · simp
    · simp; omega
  have hreq : (!(a.isEmpty && v.isEmpty)) = true := by
    cases a <;> cases v <;> simp_all
  unfold convolve
  simp only [hreq, require_true, Res.bind_ok]
  split_ifs with hc
  · exact directConvolveImpl_eq a v hlen
  · have := directConvolveImpl_eq v a (by omega)
    rw [Nat.add_comm v.length a.length] at this
    obtain ⟨r, h1, h2, h3⟩ := this
    refine ⟨r, h1, h2, fun i hi => ?_⟩
    rw [h3 i hi, ← Finset.Nat.sum_antidiagonal_swap]
    apply Finset.sum_congr rfl
    rintro ⟨p, q⟩ _
    simp [mul_comm]

theorem polyOf_eq_of_getD [Semiring R] {r : List R} {p : Polynomial R}
    (h : ∀ i, r.getD i 0 = p.coeff i) : polyOf r = p := by
  ext i; rw [coeff_polyOf, h]

/-- `convolve` multiplies the denoted polynomials. -/
theorem convolve_poly [CommSemiring R] (a v : List R) (h : ¬ (a = [] ∧ v = [])) :
    ∃ r, convolve a v = .ok r ∧ r.length = a.length + v.length - 1 ∧
      polyOf r = polyOf a * polyOf v := by
  obtain ⟨r, h1, h2, h3⟩ := convolve_spec a v h
  refine ⟨r, h1, h2, polyOf_eq_of_getD fun i => ?_⟩
  rw [Polynomial.coeff_mul]
  simp only [coeff_polyOf]
  by_cases hi : i < a.length + v.length - 1
  · exact h3 i hi
  · rw [getD_of_ge _ _ (by omega)]
    symm
    apply Finset.sum_eq_zero
    rintro ⟨p, q⟩ hpq
    rw [mem_antidiagonal] at hpq
    by_cases hp : p < a.length
    · rw [getD_of_ge v q (by simp at hpq; omega), mul_zero]
    · rw [getD_of_ge a p (by omega), zero_mul]

end SciCpp
