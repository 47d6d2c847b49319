import Verif.Model.UnitTable
import Verif.Props.Quantity
import Mathlib.NumberTheory.Padics.PadicVal.Basic
/-
  Property theorems C71–C73: unit definitions, dimension encoding, mathematical functions of
  quantities.
-/
set_option linter.unusedSectionVars false
namespace SciCpp

/-! ## C72 — the encoding of dimensions is faithful -/

/-- C72: the base dimensions are numbered by `prime_list<11>`. -/
theorem C72_base_primes : primeListFrom 100 11 1 = some (dimPrimes.map (fun n : ℕ => (n : ℤ))) := by
  decide +kernel

/-- Specification: the exponent vector of a dimension expression (index 0 is "dimensionless"). -/
def DimExpr.exps : DimExpr → Fin 11 → ℚ
  | base i => fun j => if j = i ∧ j ≠ 0 then 1 else 0
  | mul a b => fun j => a.exps j + b.exps j
  | div a b => fun j => a.exps j - b.exps j
  | pow a n => fun j => n * a.exps j
  | root a n => fun j => a.exps j / ((n : ℚ) + 1)

/-- The prime of a base dimension. -/
def dimP (i : Fin 11) : ℕ := dimPrimes.getD i 1

theorem dimP_pos (i : Fin 11) : 0 < dimP i := by
  revert i; decide

theorem dimP_zero : dimP 0 = 1 := rfl

theorem dimP_prime (i : Fin 11) (h : i ≠ 0) : (dimP i).Prime := by
  revert i; decide +kernel

theorem dimP_inj (i j : Fin 11) (h : dimP i = dimP j) : i = j := by
  revert i j; decide +kernel

/-- The number encoding an exponent vector. -/
noncomputable def dimVal (e : Fin 11 → ℚ) : ℝ := ∏ i, (dimP i : ℝ) ^ ((e i : ℚ) : ℝ)

theorem dimVal_add (a b : Fin 11 → ℚ) : dimVal (fun j => a j + b j) = dimVal a * dimVal b := by
  unfold dimVal
  rw [← Finset.prod_mul_distrib]
  refine Finset.prod_congr rfl fun i _ => ?_
  rw [Rat.cast_add, Real.rpow_add (by exact_mod_cast dimP_pos i)]

theorem dimVal_sub (a b : Fin 11 → ℚ) : dimVal (fun j => a j - b j) = dimVal a / dimVal b := by
  unfold dimVal
  rw [← Finset.prod_div_distrib]
  refine Finset.prod_congr rfl fun i _ => ?_
  rw [Rat.cast_sub, Real.rpow_sub (by exact_mod_cast dimP_pos i)]

theorem dimVal_smul (a : Fin 11 → ℚ) (c : ℚ) : dimVal (fun j => c * a j) = dimVal a ^ (c : ℝ) := by
  unfold dimVal
  rw [← Real.finsetProd_rpow _ _ (fun i _ => by positivity)]
  refine Finset.prod_congr rfl fun i _ => ?_
  rw [Rat.cast_mul, mul_comm, Real.rpow_mul (by positivity)]

theorem dimVal_base (i : Fin 11) : dimVal (DimExpr.base i).exps = dimP i := by
  unfold dimVal DimExpr.exps
  rw [Finset.prod_eq_single i]
  · by_cases h : i = 0
    · subst h; simp [dimP_zero]
    · simp [h]
  · intro j _ hj
    simp [hj]
  · simp

/-- Every dimension expression compiles and its type denotes the number of its exponent vector. -/
theorem toDim_ok (e : DimExpr) : ∃ r, e.toDim = .ok r ∧ r.Valid ∧ r.val = dimVal e.exps := by
  induction e with
  | base i =>
    refine ⟨_, rfl, ⟨dimP_pos i, Nat.one_pos, Nat.one_pos, Nat.coprime_one_right _⟩, ?_⟩
    rw [dimVal_base]
    simp [RootRatio.val, baseDim, dimP]
  | mul a b iha ihb =>
    obtain ⟨x, h1, h2, h3⟩ := iha
    obtain ⟨y, g1, g2, g3⟩ := ihb
    obtain ⟨r, k1, k2, k3⟩ := C34_multiply x y h2 g2
    refine ⟨r, ?_, k2, ?_⟩
    · simp only [DimExpr.toDim, h1, g1]; exact k1
    · rw [k3, h3, g3, ← dimVal_add]; rfl
  | div a b iha ihb =>
    obtain ⟨x, h1, h2, h3⟩ := iha
    obtain ⟨y, g1, g2, g3⟩ := ihb
    obtain ⟨r, k1, k2, k3⟩ := C34_divide x y h2 g2
    refine ⟨r, ?_, k2, ?_⟩
    · simp only [DimExpr.toDim, h1, g1]; exact k1
    · rw [k3, h3, g3, ← dimVal_sub]; rfl
  | pow a n iha =>
    obtain ⟨x, h1, h2, h3⟩ := iha
    obtain ⟨r, k1, k2, k3⟩ := C34_power x h2 n
    refine ⟨r, ?_, k2, ?_⟩
    · simp only [DimExpr.toDim, h1]; exact k1
    · rw [k3, h3]
      have := dimVal_smul a.exps n
      rw [Rat.cast_natCast, Real.rpow_natCast] at this
      rw [← this]; rfl
  | root a n iha =>
    obtain ⟨x, h1, h2, h3⟩ := iha
    obtain ⟨r, k1, k2, k3⟩ := C34_root x (n + 1) h2 (by omega)
    refine ⟨r, ?_, k2, ?_⟩
    · simp only [DimExpr.toDim, h1]; exact k1
    · rw [k3, h3]
      have := dimVal_smul a.exps (1 / ((n : ℚ) + 1))
      push_cast at this ⊢
      rw [← this]
      congr 1
      funext j
      show _ = a.exps j / ((n : ℚ) + 1)
      rw [one_div, inv_mul_eq_div]

/-- A dimension type that denotes a rational number is that plain ratio. -/
theorem toDim_canonical (e : DimExpr) (r : RootRatio) (q p : ℕ) (hq : 0 < q) (hp : 0 < p)
    (hqp : Nat.Coprime q p) (h : e.toDim = .ok r) (hv : r.val = (q : ℝ) / p) : r = ⟨q, p, 1⟩ := by
  have plain : ∀ r : RootRatio, r.Valid → r.root = 1 → r.val = (q : ℝ) / p → r = ⟨q, p, 1⟩ := by
    intro r hr h1 hv
    refine (C34_canonical_partial r ⟨q, p, 1⟩ hr ⟨hq, hp, Nat.one_pos, hqp⟩ h1).mp ?_
    rw [hv]; simp [RootRatio.val]
  cases e with
  | base i =>
    simp only [DimExpr.toDim] at h
    injection h with h
    subst h
    exact plain _ ⟨dimP_pos i, Nat.one_pos, Nat.one_pos, Nat.coprime_one_right _⟩ rfl hv
  | mul a b =>
    obtain ⟨x, h1, h2, h3⟩ := toDim_ok a
    obtain ⟨y, g1, g2, g3⟩ := toDim_ok b
    simp only [DimExpr.toDim, h1, g1, Res.bind_ok] at h
    exact C34_multiply_rational x y r q p h2 g2 hq hp hqp h hv
  | div a b =>
    obtain ⟨x, h1, h2, h3⟩ := toDim_ok a
    obtain ⟨y, g1, g2, g3⟩ := toDim_ok b
    simp only [DimExpr.toDim, h1, g1, Res.bind_ok] at h
    exact C34_multiply_rational x _ r q p h2 (inv_valid y g2).1 hq hp hqp h hv
  | pow a n =>
    obtain ⟨x, h1, h2, h3⟩ := toDim_ok a
    simp only [DimExpr.toDim, h1, Res.bind_ok] at h
    cases n with
    | zero =>
      rw [rrPow] at h
      injection h with h
      subst h
      exact plain _ (rrMk_valid 1 1 1 (by omega) (by omega) (by omega)) rfl hv
    | succ n =>
      obtain ⟨y, g1, g2, g3⟩ := C34_power x h2 n
      rw [rrPow, g1] at h
      exact C34_multiply_rational x y r q p h2 g2 hq hp hqp h hv
  | root a n =>
    obtain ⟨x, h1, h2, h3⟩ := toDim_ok a
    simp only [DimExpr.toDim, h1, Res.bind_ok] at h
    exact C34_root_rational x r (n + 1) q p h2 (by omega) hq hp hqp h hv

theorem exps_zero (e : DimExpr) : e.exps 0 = 0 := by
  induction e with
  | base i => simp [DimExpr.exps]
  | mul a b iha ihb => simp [DimExpr.exps, iha, ihb]
  | div a b iha ihb => simp [DimExpr.exps, iha, ihb]
  | pow a n iha => simp [DimExpr.exps, iha]
  | root a n iha => simp [DimExpr.exps, iha]

theorem padic_prod (n : Fin 11 → ℤ) (k : Fin 11) (hk : k ≠ 0) :
    padicValRat (dimP k) (∏ i, (dimP i : ℚ) ^ n i) = n k := by
  have : Fact (dimP k).Prime := ⟨dimP_prime k hk⟩
  have step : ∀ s : Finset (Fin 11), padicValRat (dimP k) (∏ i ∈ s, (dimP i : ℚ) ^ n i)
      = ∑ i ∈ s, if i = k then n i else 0 := by
    intro s
    induction s using Finset.induction_on with
    | empty => simp
    | insert j s hj ih =>
      have hne : ∀ i : Fin 11, ((dimP i : ℚ) ^ n i) ≠ 0 := fun i =>
        zpow_ne_zero _ (by exact_mod_cast (dimP_pos i).ne')
      rw [Finset.prod_insert hj, Finset.sum_insert hj,
        padicValRat.mul (hne j) (Finset.prod_ne_zero_iff.mpr fun i _ => hne i), ih, padicValRat.zpow]
      congr 1
      by_cases hjk : j = k
      · subst hjk
        rw [if_pos rfl, padicValRat.of_nat, padicValNat.self (dimP_prime j hk).one_lt]; simp
      · rw [if_neg hjk, padicValRat.of_nat]
        by_cases h0 : j = 0
        · subst h0; simp [dimP_zero]
        · have : Fact (dimP j).Prime := ⟨dimP_prime j h0⟩
          rw [padicValNat_primes (fun h => hjk (dimP_inj _ _ h.symm))]; simp
  rw [step, Finset.sum_ite_eq' Finset.univ k]
  simp

theorem dimVal_int (n : Fin 11 → ℤ) :
    dimVal (fun i => (n i : ℚ)) = ((∏ i, (dimP i : ℚ) ^ n i : ℚ) : ℝ) := by
  unfold dimVal
  push_cast
  refine Finset.prod_congr rfl fun i _ => ?_
  rw [Real.rpow_intCast]

theorem common_den (c : Fin 11 → ℚ) : ∃ N : ℕ, 0 < N ∧ ∃ n : Fin 11 → ℤ, ∀ i, (N : ℚ) * c i = n i := by
  refine ⟨∏ i, (c i).den, Finset.prod_pos fun i _ => (c i).den_pos, ?_⟩
  have : ∀ i, ∃ m : ℤ, ((∏ i, (c i).den : ℕ) : ℚ) * c i = m := by
    intro i
    obtain ⟨k, hk⟩ := Finset.dvd_prod_of_mem (fun i => (c i).den) (Finset.mem_univ i)
    refine ⟨k * (c i).num, ?_⟩
    rw [hk]
    push_cast
    have : ((c i).den : ℚ) * c i = (c i).num := by
      rw [mul_comm]; exact Rat.mul_den_eq_num (c i)
    linear_combination (k : ℚ) * this
  choose n hn using this
  exact ⟨n, hn⟩

theorem dimVal_inj (a b : Fin 11 → ℚ) (ha : a 0 = 0) (hb : b 0 = 0) (h : dimVal a = dimVal b) : a = b := by
  obtain ⟨N, hN, n, hn⟩ := common_den (fun j => a j - b j)
  have hpos : 0 < dimVal b := Finset.prod_pos fun i _ =>
    Real.rpow_pos_of_pos (by exact_mod_cast dimP_pos i) _
  have h1 : dimVal (fun j => a j - b j) = 1 := by rw [dimVal_sub, h, div_self hpos.ne']
  have h2 : dimVal (fun j => (N : ℚ) * (a j - b j)) = 1 := by
    rw [dimVal_smul, h1, Real.one_rpow]
  have h3 : dimVal (fun i => (n i : ℚ)) = 1 := by
    rw [← h2]; congr 1; funext i; exact (hn i).symm
  rw [dimVal_int] at h3
  have h4 : (∏ i, (dimP i : ℚ) ^ n i) = 1 := by exact_mod_cast h3
  funext k
  by_cases hk : k = 0
  · rw [hk, ha, hb]
  · have := padic_prod n k hk
    rw [h4, padicValRat.one] at this
    have hnk := hn k
    rw [← this] at hnk
    have hN0 : (N : ℚ) ≠ 0 := by exact_mod_cast hN.ne'
    have hz : a k - b k = 0 := by
      have hnk' : (N : ℚ) * (a k - b k) = 0 := by rw [hnk]; simp
      rcases mul_eq_zero.mp hnk' with h | h
      · exact absurd h hN0
      · exact h
    linarith

/-- C72 (soundness): for all products, quotients, powers and roots of base dimensions, the library
computes a dimension type, and two expressions with the same type have the same exponent vector: two
physically different dimensions are never confused. -/
theorem C72_sound (e f : DimExpr) :
    ∃ r s, e.toDim = .ok r ∧ f.toDim = .ok s ∧ (r = s → e.exps = f.exps) := by
  obtain ⟨r, h1, h2, h3⟩ := toDim_ok e
  obtain ⟨s, g1, g2, g3⟩ := toDim_ok f
  refine ⟨r, s, h1, g1, fun h => ?_⟩
  rw [h, g3] at h3
  exact dimVal_inj _ _ (exps_zero e) (exps_zero f) h3.symm

/-- C72 (completeness, partial): if the exponents are integers (after cancelling the roots), equal
exponent vectors give the same type, however the expressions were formed.  Missing: fractional
exponents, where the property is false (`C72_fractional_false`). -/
theorem C72_complete_partial (e f : DimExpr) (h : e.exps = f.exps)
    (hi : ∃ n : Fin 11 → ℤ, ∀ i, e.exps i = n i) :
    ∃ r, e.toDim = .ok r ∧ f.toDim = .ok r ∧ r.root = 1 := by
  obtain ⟨r, h1, h2, h3⟩ := toDim_ok e
  obtain ⟨s, g1, g2, g3⟩ := toDim_ok f
  obtain ⟨n, hn⟩ := hi
  have he : e.exps = fun i => (n i : ℚ) := funext hn
  set Q : ℚ := ∏ i, (dimP i : ℚ) ^ n i with hQ
  have hQpos : 0 < Q := Finset.prod_pos fun i _ => zpow_pos (by exact_mod_cast dimP_pos i) _
  have hval : dimVal e.exps = ((Q.num.toNat : ℕ) : ℝ) / Q.den := by
    rw [he, dimVal_int, ← hQ, Rat.cast_def]
    congr 1
    have : ((Q.num.toNat : ℕ) : ℤ) = Q.num := Int.toNat_of_nonneg (Rat.num_pos.mpr hQpos).le
    exact_mod_cast congrArg (fun z : ℤ => (z : ℝ)) this.symm
  have hq : 0 < Q.num.toNat := by have := Rat.num_pos.mpr hQpos; omega
  have hc : Nat.Coprime Q.num.toNat Q.den := by
    have := Q.reduced
    have e : Q.num.natAbs = Q.num.toNat := by have := Rat.num_pos.mpr hQpos; omega
    rwa [e] at this
  have k1 := toDim_canonical e r _ _ hq Q.den_pos hc h1 (by rw [h3, hval])
  have k2 := toDim_canonical f s _ _ hq Q.den_pos hc g1 (by rw [g3, ← h, hval])
  refine ⟨r, h1, ?_, by rw [k1]⟩
  rw [g1, k1, k2]

/-- A witness: `sqrt(length²·time) · sqrt(time)` and `length · time` have the same type. -/
example : ∃ r, (DimExpr.mul (.root (.mul (.pow (.base 1) 2) (.base 2)) 1) (.root (.base 2) 1)).toDim = .ok r ∧
    (DimExpr.mul (.base 1) (.base 2)).toDim = .ok r := by
  obtain ⟨r, h1, h2, _⟩ := C72_complete_partial
    (DimExpr.mul (.root (.mul (.pow (.base 1) 2) (.base 2)) 1) (.root (.base 2) 1))
    (DimExpr.mul (.base 1) (.base 2))
    (by funext j; simp only [DimExpr.exps]; split_ifs <;> norm_num)
    ⟨fun j => if j = 1 ∨ j = 2 then 1 else 0, by
      intro j; fin_cases j <;> simp [DimExpr.exps] <;> norm_num⟩
  exact ⟨r, h1, h2⟩

/-- C72 is false of the code for fractional exponents: `root<4>(length)·root<4>(length)` and
`sqrt(length)` have the same exponent vector but different types, so they can neither be added nor
compared. -/
theorem C72_fractional_false :
    (DimExpr.mul (.root (.base 1) 3) (.root (.base 1) 3)).toDim = .ok ⟨4, 1, 4⟩ ∧
    (DimExpr.root (.base 1) 1).toDim = .ok ⟨2, 1, 2⟩ ∧
    (DimExpr.mul (.root (.base 1) 3) (.root (.base 1) 3)).exps = (DimExpr.root (.base 1) 1).exps := by
  obtain ⟨h1, h2, h3, _⟩ := C34_canonical_false
  refine ⟨?_, ?_, ?_⟩
  · show (do rrMul (← rrRoot (baseDim 2) 4) (← rrRoot (baseDim 2) 4)) = _
    unfold baseDim
    rw [h1]
    exact h2
  · exact h3
  · funext j
    simp only [DimExpr.exps]
    split_ifs <;> norm_num

/-! ## C71 — unit definitions -/

theorem rrMul_plain_one (s : RootRatio) (h : s.Valid) (hr : s.root = 1) : rrMul s one1 = .ok s := by
  unfold rrMul one1
  rw [if_pos ⟨hr, rfl⟩]
  simp only [mul_one]
  rw [rrMk_of_valid s h 1]
  cases s; simp_all

theorem rrDiv_plain_one (s : RootRatio) (h : s.Valid) (hr : s.root = 1) : rrDiv s one1 = .ok s := by
  have : rrDiv s one1 = rrMul s one1 := by unfold rrDiv; rfl
  rw [this, rrMul_plain_one s h hr]

/-- The dimension of speed is `length/time` etc.; each derived quantity template passes its scale
parameter through unchanged. -/
theorem C71_scale_parameter (s : RootRatio) (h : s.Valid) (hr : s.root = 1) :
    tySpeed s = .ok ⟨⟨2, 3, 1⟩, s, 0⟩ ∧
    tyAcceleration s = .ok ⟨⟨2, 9, 1⟩, s, 0⟩ ∧
    tyArea s = .ok ⟨⟨4, 1, 1⟩, s, 0⟩ ∧
    tyVolume s = .ok ⟨⟨8, 1, 1⟩, s, 0⟩ ∧
    tyForce s = .ok ⟨⟨10, 9, 1⟩, s, 0⟩ ∧
    tyPower s = .ok ⟨⟨20, 27, 1⟩, s, 0⟩ ∧
    tyEnergy s = .ok ⟨⟨20, 9, 1⟩, s, 0⟩ ∧
    tyPressure s = .ok ⟨⟨5, 18, 1⟩, s, 0⟩ ∧
    tyFrequency s = .ok ⟨⟨1, 3, 1⟩, s, 0⟩ ∧
    tyVoltage s = .ok ⟨⟨20, 189, 1⟩, s, 0⟩ ∧
    tyCharge s = .ok ⟨⟨21, 1, 1⟩, s, 0⟩ ∧
    tyResistance s = .ok ⟨⟨20, 1323, 1⟩, s, 0⟩ ∧
    tyCapacitance s = .ok ⟨⟨3969, 20, 1⟩, s, 0⟩ ∧
    tyThermalResistance s = .ok ⟨⟨297, 20, 1⟩, s, 0⟩ := by
  have hm := rrMul_plain_one s h hr
  have hd := rrDiv_plain_one s h hr
  have o1 : one1.Valid := valid_one
  have hm1 := rrMul_plain_one one1 o1 rfl
  have hd1 := rrDiv_plain_one one1 o1 rfl
  have dv : ∀ (d e r : RootRatio) (s : RootRatio), rrDiv d e = .ok r → rrDiv s one1 = .ok s →
      tyDiv ⟨d, s, 0⟩ ⟨e, one1, 0⟩ = .ok ⟨r, s, 0⟩ := by
    intro d e r s h1 h2
    unfold tyDiv
    rw [if_neg (by simp), h1, h2]; rfl
  have ml : ∀ (d e r : RootRatio) (s : RootRatio), rrMul d e = .ok r → rrMul s one1 = .ok s →
      tyMul ⟨d, s, 0⟩ ⟨e, one1, 0⟩ = .ok ⟨r, s, 0⟩ := by
    intro d e r s h1 h2
    unfold tyMul
    rw [if_neg (by simp), h1, h2]; rfl
  have speed : ∀ s, rrDiv s one1 = .ok s → tySpeed s = .ok ⟨⟨2, 3, 1⟩, s, 0⟩ :=
    fun s h => dv _ _ _ s (by decide : rrDiv ⟨2, 1, 1⟩ ⟨3, 1, 1⟩ = .ok ⟨2, 3, 1⟩) h
  have accel : ∀ s, rrDiv s one1 = .ok s → tyAcceleration s = .ok ⟨⟨2, 9, 1⟩, s, 0⟩ := by
    intro s h
    unfold tyAcceleration; rw [speed s h]; exact dv _ _ _ s (by decide : rrDiv ⟨2, 3, 1⟩ ⟨3, 1, 1⟩ = .ok ⟨2, 9, 1⟩) h
  have area : ∀ s, rrMul s one1 = .ok s → tyArea s = .ok ⟨⟨4, 1, 1⟩, s, 0⟩ :=
    fun s h => ml _ _ _ s (by decide : rrMul ⟨2, 1, 1⟩ ⟨2, 1, 1⟩ = .ok ⟨4, 1, 1⟩) h
  have force : ∀ s, rrMul s one1 = .ok s → tyForce s = .ok ⟨⟨10, 9, 1⟩, s, 0⟩ := by
    intro s h
    unfold tyForce; rw [accel one1 hd1]; exact ml _ _ _ s (by decide : rrMul ⟨5, 1, 1⟩ ⟨2, 9, 1⟩ = .ok ⟨10, 9, 1⟩) h
  have power : ∀ s, rrMul s one1 = .ok s → tyPower s = .ok ⟨⟨20, 27, 1⟩, s, 0⟩ := by
    intro s h
    unfold tyPower; rw [force s h, speed one1 hd1]; exact ml _ _ _ s (by decide : rrMul ⟨10, 9, 1⟩ ⟨2, 3, 1⟩ = .ok ⟨20, 27, 1⟩) h
  have curr2 : tyMul (tyCurrent one1) (tyCurrent one1) = .ok ⟨⟨49, 1, 1⟩, one1, 0⟩ :=
    ml _ _ _ one1 (by decide : rrMul ⟨7, 1, 1⟩ ⟨7, 1, 1⟩ = .ok ⟨49, 1, 1⟩) hm1
  have resist : ∀ s, rrMul s one1 = .ok s → rrDiv s one1 = .ok s →
      tyResistance s = .ok ⟨⟨20, 1323, 1⟩, s, 0⟩ := by
    intro s h h'
    unfold tyResistance; rw [power s h, curr2]; exact dv _ _ _ s (by decide : rrDiv ⟨20, 27, 1⟩ ⟨49, 1, 1⟩ = .ok ⟨20, 1323, 1⟩) h'
  refine ⟨speed s hd, accel s hd, area s hm, ?_, force s hm, power s hm, ?_, ?_, ?_, ?_, ?_,
    resist s hm hd, ?_, ?_⟩
  · unfold tyVolume; rw [area s hm]; exact ml _ _ _ s (by decide : rrMul ⟨4, 1, 1⟩ ⟨2, 1, 1⟩ = .ok ⟨8, 1, 1⟩) hm
  · unfold tyEnergy; rw [power s hm]; exact ml _ _ _ s (by decide : rrMul ⟨20, 27, 1⟩ ⟨3, 1, 1⟩ = .ok ⟨20, 9, 1⟩) hm
  · unfold tyPressure; rw [force s hm, area one1 hm1]; exact dv _ _ _ s (by decide : rrDiv ⟨10, 9, 1⟩ ⟨4, 1, 1⟩ = .ok ⟨5, 18, 1⟩) hd
  · exact dv _ _ _ s (by decide : rrDiv ⟨1, 1, 1⟩ ⟨3, 1, 1⟩ = .ok ⟨1, 3, 1⟩) hd
  · unfold tyVoltage; rw [power s hm]; exact dv _ _ _ s (by decide : rrDiv ⟨20, 27, 1⟩ ⟨7, 1, 1⟩ = .ok ⟨20, 189, 1⟩) hd
  · exact ml _ _ _ s (by decide : rrMul ⟨7, 1, 1⟩ ⟨3, 1, 1⟩ = .ok ⟨21, 1, 1⟩) hm
  · unfold tyCapacitance; rw [resist one1 hm1 hd1]; exact dv _ _ _ s (by decide : rrDiv ⟨3, 1, 1⟩ ⟨20, 1323, 1⟩ = .ok ⟨3969, 20, 1⟩) hd
  · unfold tyThermalResistance; rw [power one1 hm1]; exact dv _ _ _ s (by decide : rrDiv ⟨11, 1, 1⟩ ⟨20, 27, 1⟩ = .ok ⟨297, 20, 1⟩) hd

theorem plainScale_valid (n d : ℕ) (hn : 0 < n) (hd : 0 < d) : (plainScale n d).Valid :=
  rrMk_valid n d 1 hn hd Nat.one_pos

/-- C71 (imperial and derived units, partial): the composite units are the products/quotients of the
units they are named after, with the same type.  Missing: the units of the `_false` theorems below. -/
theorem C71_composite_units_partial :
    tyDiv uMile uHour = uMilePerHour ∧
    tyMul uInch uInch = uSquareInch ∧ tyMul uFoot uFoot = uSquareFoot ∧
    tyMul uYard uYard = uSquareYard ∧ tyMul uMile uMile = uSquareMile ∧
    (do tyMul (← uSquareInch) uInch) = uCubicInch ∧ (do tyMul (← uSquareFoot) uFoot) = uCubicFoot ∧
    (do tyMul (← uSquareYard) uYard) = uCubicYard ∧ (do tyMul (← uSquareMile) uMile) = uCubicMile ∧
    (do tyMul (← uKilowatt) uHour) = uKilowattHour ∧
    uFoot.scal.val = 12 * uInch.scal.val ∧ uYard.scal.val = 3 * uFoot.scal.val ∧
    uMile.scal.val = 5280 * uFoot.scal.val ∧ uTurn.scal.val = 360 * uDegree.scal.val := by
  refine ⟨by decide +kernel, by decide +kernel, by decide +kernel, by decide +kernel,
    by decide +kernel, by decide +kernel, by decide +kernel, by decide +kernel, by decide +kernel,
    by decide +kernel, ?_, ?_, ?_, ?_⟩
  all_goals
    simp only [uFoot, uInch, uYard, uMile, uTurn, uDegree, tyLength, tyAngle, plainScale,
      rrMk_val _ _ _ (by decide : 0 < 254), rrMk_val _ _ _ (by decide : 0 < 3048),
      rrMk_val _ _ _ (by decide : 0 < 9144), rrMk_val _ _ _ (by decide : 0 < 25146000),
      rrMk_val _ _ _ (by decide : 0 < 21053343141), rrMk_val _ _ _ (by decide : 0 < 2 * 21053343141)]
    norm_num

/-- C71 is false of the code for km/h: the library's `kilometer_per_hour` of value `v` denotes
`3.6·v` m/s, while `v` kilometres divided by one hour denote `v/3.6` m/s; they differ for every
`v ≠ 0`. -/
theorem C71_km_per_hour_false (v : ℝ) (hv : v ≠ 0) :
    ∃ t : QTy, uKmPerHour = .ok t ∧ (⟨t, v⟩ : Qty ℝ).denote = 18 / 5 * v ∧
    ∃ r : Qty ℝ, qDiv (⟨uKilometer, v⟩ : Qty ℝ) ⟨uHour, 1⟩ = .ok r ∧ r.denote = 5 / 18 * v ∧
      r.ty.dim = t.dim ∧ r.denote ≠ (⟨t, v⟩ : Qty ℝ).denote := by
  have ht : uKmPerHour = .ok ⟨⟨2, 3, 1⟩, ⟨18, 5, 1⟩, 0⟩ := by decide +kernel
  have hu : uKilometer = ⟨⟨2, 1, 1⟩, ⟨1000, 1, 1⟩, 0⟩ := by decide +kernel
  have hh : uHour = ⟨⟨3, 1, 1⟩, ⟨3600, 1, 1⟩, 0⟩ := by decide +kernel
  have d1 : rrDiv ⟨2, 1, 1⟩ ⟨3, 1, 1⟩ = .ok ⟨2, 3, 1⟩ := by decide +kernel
  have d2 : rrDiv ⟨1000, 1, 1⟩ ⟨3600, 1, 1⟩ = .ok ⟨5, 18, 1⟩ := by decide +kernel
  refine ⟨_, ht, ?_, ⟨⟨⟨2, 3, 1⟩, ⟨5, 18, 1⟩, 0⟩, v / 1⟩, ?_, ?_, rfl, ?_⟩
  · simp [Qty.denote, RootRatio.val]
  · unfold qDiv; rw [hu, hh, if_neg (by simp)]; simp only [d1, d2]; rfl
  · simp [Qty.denote, RootRatio.val]
  · simp [Qty.denote, RootRatio.val]
    exact ⟨by norm_num, hv⟩

/-- C71 is false of the code for the knot: one knot denotes `6.6672` m/s instead of `1852/3600`. -/
theorem C71_knot_false : ∃ t u : QTy, uKnot = .ok t ∧ tyDiv uNauticalMile uHour = .ok u ∧
    t.dim = u.dim ∧ t.scal.val = 66672 / 10000 ∧ u.scal.val = 1852 / 3600 := by
  refine ⟨⟨⟨2, 3, 1⟩, ⟨4167, 625, 1⟩, 0⟩, ⟨⟨2, 3, 1⟩, ⟨463, 900, 1⟩, 0⟩, by decide +kernel,
    by decide +kernel, rfl, ?_, ?_⟩
  · simp [RootRatio.val]; norm_num
  · simp [RootRatio.val]; norm_num

/-- C71 is false of the code for `electrical_conductivity` (siemens) and `thermal_conductivity`: the
scale parameter is inverted, for every scale `s`. -/
theorem C71_inverted_scale_false (s : RootRatio) (h : s.Valid) (hr : s.root = 1) :
    (∃ t : QTy, tyConductivity s = .ok t ∧ t.scal.val = 1 / s.val) ∧
    (∃ t : QTy, tyThermalConductivity s = .ok t ∧ t.scal.val = 1 / s.val) := by
  obtain ⟨_, _, _, _, _, _, _, _, _, _, _, hR, _, hT⟩ := C71_scale_parameter s h hr
  obtain ⟨i, i1, i2, i3⟩ := C34_divide ⟨1, 1, 1⟩ s valid_one h
  rw [val_one] at i3
  constructor
  · have d1 : rrDiv ⟨1, 1, 1⟩ ⟨20, 1323, 1⟩ = .ok ⟨1323, 20, 1⟩ := by decide +kernel
    refine ⟨⟨⟨1323, 20, 1⟩, i, 0⟩, ?_, i3⟩
    unfold tyConductivity tyInv; rw [hR]
    simp only [Res.bind_ok, d1, i1]; rfl
  · have d1 : rrMul ⟨297, 20, 1⟩ (baseDim 2) = .ok ⟨297, 10, 1⟩ := by decide +kernel
    have d2 : rrDiv ⟨1, 1, 1⟩ ⟨297, 10, 1⟩ = .ok ⟨10, 297, 1⟩ := by decide +kernel
    have hm := rrMul_plain_one s h hr
    refine ⟨⟨⟨10, 297, 1⟩, i, 0⟩, ?_, i3⟩
    unfold tyThermalConductivity tyThermalResistivity
    rw [hT]
    have : tyMul ⟨⟨297, 20, 1⟩, s, 0⟩ (tyLength one1) = .ok ⟨⟨297, 10, 1⟩, s, 0⟩ := by
      unfold tyMul tyLength
      rw [if_neg (by simp)]
      simp only [d1, hm]; rfl
    simp only [Res.bind_ok, this]
    unfold tyInv
    simp only [d2, i1]; rfl

/-- Consequence: one `kilosiemens` denotes `1/1000` of the unit `siemens`. -/
theorem C71_kilosiemens_false : ∃ t : QTy, uKilosiemens = .ok t ∧ t.scal.val = 1 / 1000 := by
  obtain ⟨⟨t, h1, h2⟩, _⟩ := C71_inverted_scale_false (plainScale 1000 1)
    (plainScale_valid _ _ (by decide) (by decide)) rfl
  refine ⟨t, h1, ?_⟩
  rw [h2, plainScale, rrMk_val _ _ _ (by decide)]
  simp

/-- C71 is false of the code: the teratonne is `10^6` gigatonnes, and the dyne (likewise the other
force units declared next to it) has the dimension of a volume, not of a force. -/
theorem C71_teratonne_dyne_false :
    uTeratonne.scal.val = 10 ^ 6 * uGigatonne.scal.val ∧
    ∃ t f : QTy, uDyne = .ok t ∧ tyForce one1 = .ok f ∧ t.dim ≠ f.dim ∧ tyVolume one1 = .ok ⟨t.dim, one1, 0⟩ := by
  constructor
  · simp only [uTeratonne, uGigatonne, tyMass, plainScale,
      rrMk_val _ _ _ (by positivity : 0 < 10 ^ 18), rrMk_val _ _ _ (by positivity : 0 < 10 ^ 12)]
    norm_num
  · exact ⟨⟨⟨8, 1, 1⟩, ⟨1, 100000, 1⟩, 0⟩, ⟨⟨10, 9, 1⟩, one1, 0⟩, by decide +kernel, by decide +kernel,
      by decide, by decide +kernel⟩

/-- C71: the tonne is `1000` kilograms and the gigatonne `10^9` tonnes; the teratonne is not `10^12`
tonnes but `10^15`. -/
theorem C71_tonnes :
    uTonne.scal.val = 1000 ∧ uTonne.dim = (tyMass one1).dim ∧
    uGigatonne.scal.val = 10 ^ 9 * uTonne.scal.val ∧ uTeratonne.scal.val = 10 ^ 15 * uTonne.scal.val ∧
    uTeratonne.scal.val ≠ 10 ^ 12 * uTonne.scal.val := by
  have h1 : uTonne.scal.val = 1000 := by
    simp only [uTonne, tyMass, plainScale, rrMk_val _ _ _ (by decide : 0 < 1000)]; norm_num
  have h2 : uGigatonne.scal.val = 10 ^ 12 := by
    simp only [uGigatonne, tyMass, plainScale, rrMk_val _ _ _ (by positivity : 0 < 10 ^ 12)]; norm_num
  have h3 : uTeratonne.scal.val = 10 ^ 18 := by
    simp only [uTeratonne, tyMass, plainScale, rrMk_val _ _ _ (by positivity : 0 < 10 ^ 18)]; norm_num
  rw [h1, h2, h3]
  exact ⟨rfl, rfl, by norm_num, by norm_num, by norm_num⟩

/-! ## C73 — mathematical functions of quantities -/

/-- C73 (partial): functions that keep the type of their argument denote the same function of the
denoted value (units without offset).  Missing: `fma` with different scales, functions of scaled
dimensionless quantities and units with offsets, where the property is false (below). -/
theorem C73_same_type_partial (t : QTy) (ht : t.Valid) (h0 : t.off = 0) (x y : ℝ) :
    (qAbs ⟨t, x⟩).denote = |(⟨t, x⟩ : Qty ℝ).denote| ∧
    (qHypot t x y).denote =
      Real.sqrt ((⟨t, x⟩ : Qty ℝ).denote ^ 2 + (⟨t, y⟩ : Qty ℝ).denote ^ 2) ∧
    (qFmax t x y).denote = max (⟨t, x⟩ : Qty ℝ).denote (⟨t, y⟩ : Qty ℝ).denote := by
  have hs := RootRatio.val_pos t.scal ht.2
  simp only [qAbs, qHypot, qFmax, Qty.denote, h0, RCLike.ofReal_real_eq_id, id_eq, Rat.cast_zero,
    add_zero]
  refine ⟨?_, ?_, ?_⟩
  · rw [abs_mul, abs_of_pos hs]
  · rw [mul_pow, mul_pow, ← mul_add, Real.sqrt_mul (by positivity), Real.sqrt_sq hs.le]
  · rw [mul_max_of_nonneg _ _ hs.le]

/-- C73: `fmax` denotes the maximum for units with an offset as well. -/
theorem C73_fmax (t : QTy) (ht : t.Valid) (x y : ℝ) :
    (qFmax t x y).denote = max (⟨t, x⟩ : Qty ℝ).denote (⟨t, y⟩ : Qty ℝ).denote := by
  have hs := RootRatio.val_pos t.scal ht.2
  simp only [qFmax, Qty.denote, RCLike.ofReal_real_eq_id, id_eq]
  rw [mul_max_of_nonneg _ _ hs.le, max_add_add_right]

/-- C73 (`fma`, exact condition): `fma(x, y, z)` denotes `x·y + z` if and only if `z` is zero or its
scale denotes the product of the scales of `x` and `y`. -/
theorem C73_fma_iff (x y z : Qty ℝ) (hx : x.ty.Valid) (hy : y.ty.Valid) (h0 : x.ty.off = 0)
    (h0' : y.ty.off = 0) (h0'' : z.ty.off = 0) (p : Qty ℝ) (hp : qMul x y = .ok p)
    (hd : p.ty.dim = z.ty.dim) :
    ∃ r : Qty ℝ, qFma x y z = .ok r ∧
      (r.denote = x.denote * y.denote + z.denote ↔
        z.val = 0 ∨ z.ty.scal.val = x.ty.scal.val * y.ty.scal.val) := by
  obtain ⟨d, h1, h2, h3⟩ := C34_multiply x.ty.dim y.ty.dim hx.1 hy.1
  obtain ⟨s, g1, g2, g3⟩ := C34_multiply x.ty.scal y.ty.scal hx.2 hy.2
  have he : qMul x y = .ok ⟨⟨d, s, 0⟩, x.val * y.val⟩ := by
    unfold qMul; rw [if_neg (by simp [h0']), h1, g1]; rfl
  rw [he] at hp
  injection hp with hp
  subst hp
  unfold qFma
  rw [he]
  simp only [Res.bind_ok, Res.pure_eq]
  rw [if_neg (by simpa using hd)]
  refine ⟨_, rfl, ?_⟩
  simp only [Qty.denote, g3, h0, h0', h0'', RCLike.ofReal_real_eq_id, id_eq, Rat.cast_zero, add_zero]
  constructor
  · intro h
    have : (x.ty.scal.val * y.ty.scal.val - z.ty.scal.val) * z.val = 0 := by linear_combination h
    rcases mul_eq_zero.mp this with h | h
    · right; linarith
    · left; exact h
  · rintro (h | h)
    · rw [h]; ring
    · rw [h]; ring

/-- C73 is false of the code for `fma`: `fma(1 m, 1 m, 1 cm²)` gives `2 m²`. -/
theorem C73_fma_false :
    qFma ⟨⟨⟨2, 1, 1⟩, ⟨1, 1, 1⟩, 0⟩, 1⟩ ⟨⟨⟨2, 1, 1⟩, ⟨1, 1, 1⟩, 0⟩, 1⟩
      ⟨⟨⟨4, 1, 1⟩, ⟨1, 10000, 1⟩, 0⟩, 1⟩ = .ok ⟨⟨⟨4, 1, 1⟩, ⟨1, 1, 1⟩, 0⟩, 1 * 1 + 1⟩ := by
  have h1 : rrMul ⟨2, 1, 1⟩ ⟨2, 1, 1⟩ = .ok ⟨4, 1, 1⟩ := by decide +kernel
  have h2 : rrMul ⟨1, 1, 1⟩ ⟨1, 1, 1⟩ = .ok ⟨1, 1, 1⟩ := by decide +kernel
  unfold qFma qMul
  simp only [h1, h2]
  rfl

/-- C73 (`exp`, exact condition): `exp(x)` of a dimensionless quantity is the exponential of the
denoted number if and only if the value is zero or the scale is 1: the scale of a dimensionless
quantity (e.g. millimetres divided by metres) is ignored. -/
theorem C73_exp_iff (x : Qty ℝ) (hd : x.ty.dim = ⟨1, 1, 1⟩) (h0 : x.ty.off = 0) :
    ∃ e : ℝ, qExp x = .ok e ∧ (e = Real.exp x.denote ↔ x.val = 0 ∨ x.ty.scal.val = 1) := by
  refine ⟨Real.exp x.val, ?_, ?_⟩
  · unfold qExp; rw [if_neg (by simp [hd])]
  · rw [Real.exp_eq_exp]
    simp only [Qty.denote, h0, RCLike.ofReal_real_eq_id, id_eq, Rat.cast_zero, add_zero]
    constructor
    · intro h
      have : (x.ty.scal.val - 1) * x.val = 0 := by linear_combination -h
      rcases mul_eq_zero.mp this with h | h
      · right; linarith
      · left; exact h
    · rintro (h | h)
      · rw [h]; ring
      · rw [h]; ring

/-- C73 is false of the code: `exp(1 mm / 1 m)` is `e`, not `e^(1/1000)`. -/
theorem C73_exp_false :
    ∃ q : Qty ℝ, qDiv (⟨⟨⟨2, 1, 1⟩, ⟨1, 1000, 1⟩, 0⟩, 1⟩ : Qty ℝ) ⟨⟨⟨2, 1, 1⟩, ⟨1, 1, 1⟩, 0⟩, 1⟩ = .ok q ∧
      qExp q = .ok (Real.exp 1) ∧ q.denote = 1 / 1000 := by
  have h1 : rrDiv ⟨2, 1, 1⟩ ⟨2, 1, 1⟩ = .ok ⟨1, 1, 1⟩ := by decide +kernel
  have h2 : rrDiv ⟨1, 1000, 1⟩ ⟨1, 1, 1⟩ = .ok ⟨1, 1000, 1⟩ := by decide +kernel
  refine ⟨⟨⟨⟨1, 1, 1⟩, ⟨1, 1000, 1⟩, 0⟩, 1 / 1⟩, ?_, ?_, ?_⟩
  · unfold qDiv; rw [if_neg (by simp)]; simp only [h1, h2]; rfl
  · unfold qExp; rw [if_neg (by simp)]; norm_num
  · simp [Qty.denote, RootRatio.val]

/-- C73: `sin` of an angle in any unit is the sine of the denoted angle (in radians). -/
theorem C73_sin (angle : RootRatio) (x : Qty ℝ) (hx : x.ty.Valid) (hd : x.ty.dim = angle) :
    qSin angle x = .ok (Real.sin x.denote) := by
  subst hd
  obtain ⟨r, h1, h2, h3⟩ := C38_cast_iff ⟨x.ty.dim, ⟨1, 1, 1⟩, 0⟩ x hx ⟨hx.1, valid_one⟩ rfl
  unfold qSin
  rw [if_neg (by simp), h1]
  have h4 := h3.mpr (Or.inr val_one)
  have h5 : r.denote = r.val := by
    simp only [Qty.denote, h2, val_one]; simp
  simp only [Res.bind_ok, Res.pure_eq]
  rw [← h4, h5]

example : qSin ⟨19, 1, 1⟩ ⟨uDegree, 90⟩ = .ok (Real.sin (⟨uDegree, 90⟩ : Qty ℝ).denote) :=
  C73_sin _ _ ⟨⟨by decide, by decide, by decide, by decide⟩,
    plainScale_valid _ _ (by decide) (by decide)⟩ rfl

end SciCpp
