import Verif.Model.Arith64
import Verif.Props.QExpr
import Verif.Props.Prime64
/-
  Property theorems C121: the compile-time arithmetic of units with 64-bit integers.
-/
namespace SciCpp

/-! ### Specification -/

/-- The largest integer whose square is below 2^63. -/
def sqrt63 : ℕ := 3037000499

/-- A prime whose factorisation overflows: `z * z` is computed for `z` just above its square root. -/
def HugePrime (n : ℕ) : Prop := n.Prime ∧ sqrt63 ^ 2 ≤ n

/-- A positive rational number can be written as a `std::ratio`: numerator and denominator in lowest terms are below 2^63. -/
def Fits64 (q : ℚ) : Prop := q.num < 2 ^ 63 ∧ q.den < 2 ^ 63

instance (q : ℚ) : Decidable (Fits64 q) := inferInstanceAs (Decidable (_ ∧ _))

/-- The rational number under the root. -/
def RootRatio.ratio (r : RootRatio) : ℚ := (r.num : ℚ) / r.den

/-- The members of the type are 64-bit integers. -/
def RootRatio.Small (r : RootRatio) : Prop := r.num < 2 ^ 63 ∧ r.den < 2 ^ 63 ∧ r.root < 2 ^ 63

/-! ### Powers -/

theorem i64_nat (m : ℕ) : i64 (m : ℤ) = if m < 2 ^ 63 then .ok (m : ℤ) else .ub := by
  unfold i64
  by_cases h : m < 2 ^ 63
  · rw [if_pos h, if_pos ⟨by omega, by exact_mod_cast h⟩]
  · rw [if_neg h, if_neg (by omega)]

theorem i64_inv {v w : ℤ} (h : i64 v = .ok w) : w = v := by
  unfold i64 at h
  split_ifs at h
  injection h with h; exact h.symm

theorem Res.ub_bind' {α β : Type} (f : α → Res β) : ((Res.ub : Res α) >>= f) = .ub := rfl

theorem powI64_step (n a : ℕ) (hn : n ≠ 0): powI64 a n = (do
    let p ← powI64 a (n / 2 : ℕ)
    let t ← i64 (p * p)
    i64 (t * ((if n % 2 = 0 then 1 else a : ℕ) : ℤ))) := by
  conv_lhs => unfold powI64
  have hmod : (if (n : ℤ).tmod 2 = 0 then (1 : ℤ) else a) = ((if n % 2 = 0 then 1 else a : ℕ) : ℤ) := by
        have : (n : ℤ).tmod 2 = ((n % 2 : ℕ) : ℤ) := (Int.ofNat_tmod n 2).symm
        rw [this]
        by_cases h : n % 2 = 0
        · simp [h]
        · rw [if_neg h, if_neg (by exact_mod_cast h)]
  rw [if_neg (by exact_mod_cast hn), show (n : ℤ).tdiv 2 = ((n / 2 : ℕ) : ℤ) from (Int.ofNat_tdiv n 2).symm, hmod]

theorem pow_half (n a : ℕ) : a ^ n = a ^ (n / 2) * a ^ (n / 2) * (if n % 2 = 0 then 1 else a) := by
        conv_lhs => rw [show n = n / 2 + n / 2 + n % 2 by omega]
        rw [pow_add, pow_add]
        rcases Nat.mod_two_eq_zero_or_one n with h | h <;> simp [h]

theorem powI64_gen (f : ℤ → Res ℤ) (P : ℕ → Res ℤ) (B : ℕ) (a : ℕ) (h0 : P 0 = .ok ((1 : ℕ) : ℤ))
    (hs : ∀ n : ℕ, n ≠ 0 → P n = (do
      let p ← P (n / 2)
      let t ← f (p * p)
      f (t * ((if n % 2 = 0 then 1 else a : ℕ) : ℤ))))
    (hi : ∀ m : ℕ, f (m : ℤ) = if m < B then .ok (m : ℤ) else .ub) (hB1 : 1 < B) (n : ℕ) :
    P n = if a ^ n < B then .ok ((a ^ n : ℕ) : ℤ) else .ub := by
  induction n using Nat.strong_induction_on with
  | _ n ih =>
    by_cases hn : n = 0
    · subst hn
      rw [pow_zero, if_pos hB1]
      exact h0
    · rw [hs n hn, ih (n / 2) (by omega)]
      have hpow := pow_half n a
      have hc : a ^ (n / 2) ≤ 1 ∨ (1 ≤ a ^ (n / 2) ∧ 1 ≤ (if n % 2 = 0 then 1 else a)) := by
        rcases Nat.eq_zero_or_pos a with ha | ha
        · left; subst ha
          rcases Nat.eq_zero_or_pos (n / 2) with h | h
          · rw [h, pow_zero]
          · rw [zero_pow (by omega)]; omega
        · right
          exact ⟨Nat.one_le_pow _ _ ha, by split_ifs <;> omega⟩
      generalize (if n % 2 = 0 then 1 else a) = m at hpow hc ⊢
      generalize a ^ (n / 2) = p at *
      generalize a ^ n = x at *
      by_cases h3 : p < B
      · rw [if_pos h3]
        simp -implicitDefEqProofs only [Res.bind_ok]
        rw [← Nat.cast_mul, hi]
        by_cases h4 : p * p < B
        · rw [if_pos h4]
          simp -implicitDefEqProofs only [Res.bind_ok]
          rw [← Nat.cast_mul, hi, ← hpow]
        · rw [if_neg h4]
          simp only [Res.bind_ub]
          rw [if_neg]
          intro h
          rcases hc with h' | ⟨-, h'⟩
          · have : p * p ≤ 1 * 1 := Nat.mul_le_mul h' h'
            omega
          · have : p * p ≤ x := by rw [hpow]; exact Nat.le_mul_of_pos_right _ h'
            omega
      · rw [if_neg h3]
        simp only [Res.bind_ub]
        rw [if_neg]
        intro h
        rcases hc with h' | ⟨h'', h'⟩
        · omega
        · have h1 : p * p ≤ x := by rw [hpow]; exact Nat.le_mul_of_pos_right _ h'
          have h2 : p ≤ p * p := Nat.le_mul_of_pos_right _ h''
          omega

/-- C121: the compile-time power compiles exactly when its result is below 2^63, and is then right: the intermediate squares never overflow first. -/
theorem C121_power (a n : ℕ) : powI64 a n = if a ^ n < 2 ^ 63 then .ok ((a ^ n : ℕ) : ℤ) else .ub :=
  powI64_gen i64 (fun n => powI64 a n) (2 ^ 63) a (by unfold powI64; rfl) (fun n hn => powI64_step n a hn) i64_nat (by norm_num) n

example : powI64 2 62 = .ok (2 ^ 62) ∧ powI64 2 63 = .ub := by
  have h1 := C121_power 2 62
  have h2 := C121_power 2 63
  norm_num at h1 h2
  exact ⟨h1, h2⟩

/-! ### Factorisation -/

theorem factorLoop64_eq : ∀ (fuel z num : ℕ) (fs : Factors), 2 ≤ z → z ≤ sqrt63 → 1 ≤ num → num < 2 ^ 63 →
    (∀ p, p.Prime → p ∣ num → z ≤ p) → ¬ HugePrime num →
    factorLoop64 fuel z num fs = factorLoop fuel z num fs := by
  intro fuel
  induction fuel with
  | zero => intro z num fs _ _ _ _ _ _; rfl
  | succ fuel ih =>
    intro z num fs hz hB h1 h63 hp hh
    have hzz : z * z < 2 ^ 63 := lt_of_le_of_lt (Nat.mul_le_mul hB hB) (by norm_num [sqrt63])
    simp only [factorLoop64, factorLoop]
    rw [← Nat.cast_mul, i64_nat, if_pos hzz]
    simp -implicitDefEqProofs only [Res.bind_ok]
    by_cases hle : z * z ≤ num
    · have hle' : ((z * z : ℕ) : ℤ) ≤ num := by exact_mod_cast hle
      simp only [if_pos hle']
      by_cases hd : z ∣ num
      · have hm : (num : ℤ).tmod z = 0 := (tmod_eq_zero_iff _ _).2 hd
        simp only [if_pos hm]
        cases appendFactor fs (z : ℤ) fs.length 0 with
        | ub => rfl
        | ok fs' =>
          simp -implicitDefEqProofs only [Res.bind_ok]
          rw [show (num : ℤ).tdiv z = ((num / z : ℕ) : ℤ) from (Int.ofNat_tdiv num z).symm]
          have hq : num / z ≤ num / 2 := Nat.div_le_div_left hz (by omega)
          refine ih z (num / z) fs' hz hB (Nat.div_pos (Nat.le_of_dvd h1 hd) (by omega)) (by omega) ?_ ?_
          · intro p pp pd; exact hp p pp (pd.trans (Nat.div_dvd_of_dvd hd))
          · rintro ⟨-, h⟩
            have : sqrt63 ^ 2 = 9223372030926249001 := by norm_num [sqrt63]
            omega
      · have hm : ¬ (num : ℤ).tmod z = 0 := fun h => hd ((tmod_eq_zero_iff _ _).1 h)
        simp only [if_neg hm]
        have hz1 : (z : ℤ) + 1 = ((z + 1 : ℕ) : ℤ) := by push_cast; ring
        rw [hz1, i64_nat, if_pos (by unfold sqrt63 at hB; omega)]
        simp -implicitDefEqProofs only [Res.bind_ok]
        have hp' : ∀ p, p.Prime → p ∣ num → z + 1 ≤ p := by
          intro p pp pd
          have := hp p pp pd
          rcases Nat.lt_or_ge z p with h | h
          · exact h
          · exact absurd (by have : p = z := by omega
                             rwa [this] at pd) hd
        by_cases hB' : z + 1 ≤ sqrt63
        · exact ih (z + 1) num fs (by omega) hB' h1 h63 hp' hh
        · exfalso
          have hzB : z = sqrt63 := by omega
          refine hh ⟨?_, by rw [← hzB, sq]; exact hle⟩
          have h2 : 2 ≤ num := le_trans (by nlinarith) hle
          rw [Nat.prime_def_le_sqrt]
          refine ⟨h2, fun m hm2 hms hmd => ?_⟩
          have hpf := hp' _ (Nat.minFac_prime (by omega : m ≠ 1)) ((Nat.minFac_dvd m).trans hmd)
          have hle2 := Nat.minFac_le (n := m) (by omega)
          have hmm : m * m ≤ num := Nat.le_sqrt.1 hms
          have : (sqrt63 + 1) * (sqrt63 + 1) ≤ m * m := Nat.mul_le_mul (by omega) (by omega)
          have h9 : (sqrt63 + 1) * (sqrt63 + 1) = 9223372037000250000 := by norm_num [sqrt63]
          omega
    · have hle' : ¬ ((z * z : ℕ) : ℤ) ≤ num := by exact_mod_cast hle
      simp only [if_neg hle']

theorem factorLoop64_ub (n : ℕ) (h : HugePrime n) : ∀ (k fuel z : ℕ) (fs : Factors), z + k = sqrt63 + 1 → 2 ≤ z → k + 1 ≤ fuel →
    factorLoop64 fuel z n fs = .ub := by
  intro k
  induction k with
  | zero =>
    intro fuel z fs hz _ hf
    obtain ⟨f, rfl⟩ : ∃ f, fuel = f + 1 := ⟨fuel - 1, by omega⟩
    have : z = 3037000500 := by unfold sqrt63 at hz; omega
    subst this
    simp only [factorLoop64]
    rw [← Nat.cast_mul, i64_nat, if_neg (by norm_num)]; rfl
  | succ k ih =>
    intro fuel z fs hz h2 hf
    obtain ⟨f, rfl⟩ : ∃ f, fuel = f + 1 := ⟨fuel - 1, by omega⟩
    have hB : z ≤ sqrt63 := by omega
    have hzz : z * z ≤ sqrt63 ^ 2 := by rw [sq]; exact Nat.mul_le_mul hB hB
    have hB2 : sqrt63 ^ 2 = 9223372030926249001 := by norm_num [sqrt63]
    simp only [factorLoop64]
    rw [← Nat.cast_mul, i64_nat, if_pos (by omega)]
    simp -implicitDefEqProofs only [Res.bind_ok]
    rw [if_pos (by have := h.2; exact_mod_cast le_trans hzz this)]
    have hnd : ¬ (n : ℤ).tmod z = 0 := by
      intro hm
      have hd := (tmod_eq_zero_iff n z).1 hm
      rcases (Nat.dvd_prime h.1).1 hd with e | e
      · omega
      · have := h.2; unfold sqrt63 at hB this; omega
    rw [if_neg hnd, show (z : ℤ) + 1 = ((z + 1 : ℕ) : ℤ) by push_cast; ring, i64_nat, if_pos (by unfold sqrt63 at hB; omega)]
    simp -implicitDefEqProofs only [Res.bind_ok]
    exact ih f (z + 1) fs (by omega) (by omega) (by omega)

open Classical in
/-- C121: the compile-time factorisation of a 64-bit integer compiles except for the primes from 3037000499^2 on, and then gives the factors
of C31. -/
theorem C121_prime_factors (n : ℕ) (h1 : 1 ≤ n) (h63 : n < 2 ^ 63) :
    factors64 n = if HugePrime n then .ub else factorsOf n := by
  by_cases h : HugePrime n
  · rw [if_pos h]
    unfold factors64
    have := factorLoop64_ub n h (sqrt63 - 1) (2 * n + 1) 2 (List.replicate (ctLog2 n).toNat (0, 0)) (by unfold sqrt63; omega) (le_refl _)
      (by have := h.2; unfold sqrt63 at *; omega)
    rw [show ((2 : ℕ) : ℤ) = 2 from rfl] at this
    rw [this]; rfl
  · rw [if_neg h]
    unfold factors64 factorsOf primeFactorsOf
    have := factorLoop64_eq (2 * n + 1) 2 n (List.replicate (ctLog2 n).toNat (0, 0)) (le_refl _) (by norm_num [sqrt63]) h1 h63
      (fun p pp _ => pp.two_le) h
    rw [show ((2 : ℕ) : ℤ) = 2 from rfl] at this
    rw [this]; rfl

/-- A prime close to 2^63. -/
theorem topPrime : Nat.Prime 9223372036854683993 := by
  have red : ∀ k c : ℕ, k < 2 ^ 64 → Spec.powMod 9223372036854683993 3 64 k = c → (3 : ZMod 9223372036854683993) ^ k = (c : ℕ) := by
    intro k c hk h
    rw [powMod_eq _ _ _ _ hk] at h
    rw [← h, ZMod.natCast_mod]
    push_cast
    rfl
  refine lucas_primality _ (3 : ZMod 9223372036854683993) ?_ ?_
  · rw [red _ 1 (by norm_num) (by decide +kernel)]; simp
  · intro q hq hd
    have hfac : (9223372036854683993 - 1 : ℕ) = 2 ^ 3 * (83 * (139 * (151 * (8527 * (8753 * 8867))))) := by norm_num
    rw [hfac] at hd
    have hne : ∀ c : ℕ, c ≠ 1 → c < 9223372036854683993 → ((c : ℕ) : ZMod 9223372036854683993) ≠ 1 := by
      intro c hc hlt h
      have h1 : ((c : ℕ) : ZMod 9223372036854683993) = ((1 : ℕ) : ZMod 9223372036854683993) := by simpa using h
      rw [ZMod.natCast_eq_natCast_iff'] at h1
      rw [Nat.mod_eq_of_lt hlt, Nat.mod_eq_of_lt (by norm_num)] at h1
      exact hc h1
    have hcases : q = 2 ∨ q = 83 ∨ q = 139 ∨ q = 151 ∨ q = 8527 ∨ q = 8753 ∨ q = 8867 := by
      have pd : ∀ r : ℕ, r.Prime → q ∣ r → q = r := fun r hr h => (Nat.prime_dvd_prime_iff_eq hq hr).1 h
      rcases (Nat.Prime.dvd_mul hq).1 hd with h | h
      · exact Or.inl (pd _ (by norm_num) (hq.dvd_of_dvd_pow h))
      rcases (Nat.Prime.dvd_mul hq).1 h with h | h
      · exact Or.inr (Or.inl (pd _ (by norm_num) h))
      rcases (Nat.Prime.dvd_mul hq).1 h with h | h
      · exact Or.inr (Or.inr (Or.inl (pd _ (by norm_num) h)))
      rcases (Nat.Prime.dvd_mul hq).1 h with h | h
      · exact Or.inr (Or.inr (Or.inr (Or.inl (pd _ (by norm_num) h))))
      rcases (Nat.Prime.dvd_mul hq).1 h with h | h
      · exact Or.inr (Or.inr (Or.inr (Or.inr (Or.inl (pd _ (by norm_num) h)))))
      rcases (Nat.Prime.dvd_mul hq).1 h with h | h
      · exact Or.inr (Or.inr (Or.inr (Or.inr (Or.inr (Or.inl (pd _ (by norm_num) h))))))
      exact Or.inr (Or.inr (Or.inr (Or.inr (Or.inr (Or.inr (pd _ (by norm_num) h))))))
    rcases hcases with rfl | rfl | rfl | rfl | rfl | rfl | rfl
    · rw [red _ 9223372036854683992 (by norm_num) (by decide +kernel)]
      exact hne _ (by norm_num) (by norm_num)
    · rw [red _ 4451084314464083667 (by norm_num) (by decide +kernel)]
      exact hne _ (by norm_num) (by norm_num)
    · rw [red _ 2222788918288880900 (by norm_num) (by decide +kernel)]
      exact hne _ (by norm_num) (by norm_num)
    · rw [red _ 7602697292222741002 (by norm_num) (by decide +kernel)]
      exact hne _ (by norm_num) (by norm_num)
    · rw [red _ 6845352709645088085 (by norm_num) (by decide +kernel)]
      exact hne _ (by norm_num) (by norm_num)
    · rw [red _ 5365535360321463542 (by norm_num) (by decide +kernel)]
      exact hne _ (by norm_num) (by norm_num)
    · rw [red _ 3215963983324619255 (by norm_num) (by decide +kernel)]
      exact hne _ (by norm_num) (by norm_num)

/-- C121: there are such primes: `prime_factors<9223372036854683993>` does not compile, although 9223372036854683993 fits. -/
theorem C121_prime_factors_false : (9223372036854683993 : ℕ) < 2 ^ 63 ∧ Nat.Prime 9223372036854683993 ∧ factors64 9223372036854683993 = .ub := by
  refine ⟨by norm_num, topPrime, ?_⟩
  rw [C121_prime_factors _ (by norm_num) (by norm_num), if_pos ⟨topPrime, by norm_num [sqrt63]⟩]

/-! ### Roots -/

theorem computeRoot64_emb (R : ℕ) (cur : List (ℕ × ℕ)) (k : ℕ) : ∀ res : ℕ, (∀ e ∈ cur, 1 ≤ e.1) → 1 ≤ res →
    res * (cur.map fun e => e.1 ^ (e.2 / R)).prod < 2 ^ 63 →
    computeRoot64 R (embF cur k) res = .ok ((res * (cur.map fun e => e.1 ^ (e.2 / R)).prod : ℕ) : ℤ) := by
  have hz : ∀ (k : ℕ) (a : ℕ), a < 2 ^ 63 → computeRoot64 R (List.replicate k ((0, 0) : ℤ × ℤ)) a = .ok (a : ℤ) := by
    intro k
    induction k with
    | zero => intro a _; rfl
    | succ k ih =>
      intro a ha
      rw [List.replicate_succ, computeRoot64]
      have : powI64 0 ((0 : ℤ).tdiv R) = .ok 1 := by
        rw [Int.zero_tdiv]; unfold powI64; rw [if_pos rfl]
      simp -implicitDefEqProofs only [this, Res.bind_ok]
      rw [mul_one, i64_nat, if_pos ha]
      exact ih a ha
  induction cur with
  | nil =>
    intro res _ _ h
    rw [List.map_nil, List.prod_nil, mul_one] at h ⊢
    exact hz k res h
  | cons e l ih =>
    intro res hp h1 h
    rw [List.map_cons, List.prod_cons, ← mul_assoc] at h ⊢
    have hl : 1 ≤ (l.map fun e => e.1 ^ (e.2 / R)).prod := by
      apply List.one_le_prod
      intro x hx
      obtain ⟨y, hy, rfl⟩ := List.mem_map.1 hx
      exact Nat.one_le_pow _ _ (hp y (by simp [hy]))
    have he : 1 ≤ e.1 ^ (e.2 / R) := Nat.one_le_pow _ _ (hp e (by simp))
    have b1 : res * e.1 ^ (e.2 / R) < 2 ^ 63 := lt_of_le_of_lt (Nat.le_mul_of_pos_right _ hl) h
    have b2 : e.1 ^ (e.2 / R) < 2 ^ 63 := lt_of_le_of_lt (Nat.le_mul_of_pos_left _ h1) b1
    have : embF (e :: l) k = ((e.1 : ℤ), (e.2 : ℤ)) :: embF l k := rfl
    rw [this, computeRoot64]
    simp only
    rw [show (e.2 : ℤ).tdiv (R : ℤ) = ((e.2 / R : ℕ) : ℤ) from (Int.ofNat_tdiv _ _).symm, C121_power, if_pos b2]
    simp -implicitDefEqProofs only [Res.bind_ok]
    rw [← Nat.cast_mul, i64_nat, if_pos b1]
    simp -implicitDefEqProofs only [Res.bind_ok]
    exact ih _ (fun e he => hp e (by simp [he])) (Nat.mul_pos h1 he) h

open Classical in
/-- C121: the root of a ratio compiles exactly when the product of the roots is below 2^63 and numerator and denominator can be factored, and is
then that of unbounded integers (C34). -/
theorem C121_root (r : RootRatio) (n : ℕ) (h : r.Valid) (hs : r.Small) :
    rrRoot64 r n = if r.root * n < 2 ^ 63 ∧ ¬ HugePrime r.num ∧ ¬ HugePrime r.den then rrRoot r n else .ub := by
  unfold rrRoot64
  rw [← Nat.cast_mul, i64_nat]
  by_cases hR : r.root * n < 2 ^ 63
  swap
  · rw [if_neg hR, Res.bind_ub, if_neg (fun h => hR h.1)]
  rw [if_pos hR]
  simp -implicitDefEqProofs only [Res.bind_ok]
  rw [C121_prime_factors _ h.1 hs.1, C121_prime_factors _ h.2.1 hs.2.1]
  by_cases hq : HugePrime r.num
  · rw [if_pos hq, Res.bind_ub, if_neg (fun h => h.2.1 hq)]
  by_cases hp : HugePrime r.den
  · rw [if_pos hp, if_neg hq, if_neg (fun h => h.2.2 hp)]
    cases factorsOf r.num with
    | ub => rfl
    | ok x => rw [Res.bind_ok, Res.bind_ub]
  rw [if_neg hq, if_neg hp, if_pos ⟨hR, hq, hp⟩]
  obtain ⟨qf, k1, e1, g1, p1⟩ := factorsOf_ok r.num h.1
  obtain ⟨pf, k2, e2, g2, p2⟩ := factorsOf_ok r.den h.2.1
  unfold rrRoot
  rw [e1, e2]
  simp -implicitDefEqProofs only [Res.bind_ok]
  have hle : ∀ (cur : List (ℕ × ℕ)), GoodF cur → (cur.map fun e => e.1 ^ (e.2 / (r.root * n))).prod ≤ facProd cur := by
    intro cur hg
    unfold facProd
    have hg2 := hg.2
    clear hg
    induction cur with
    | nil => simp
    | cons e l ih =>
      rw [List.map_cons, List.prod_cons, List.map_cons, List.prod_cons]
      exact Nat.mul_le_mul (Nat.pow_le_pow_right (hg2 e (by simp)).1.one_lt.le (Nat.div_le_self _ _)) (ih fun x hx => hg2 x (by simp [hx]))
  have hc : ∀ (cur : List (ℕ × ℕ)) (k : ℕ), GoodF cur → facProd cur < 2 ^ 63 →
      computeRoot64 ((r.root * n : ℕ) : ℤ) (embF cur k) 1 = .ok (computeRoot (embF cur k) (r.root * n : ℕ)) := by
    intro cur k hg hf
    have := computeRoot64_emb (r.root * n) cur k 1 (fun e he => (hg.2 e he).1.one_lt.le) (le_refl _)
      (by rw [one_mul]; exact lt_of_le_of_lt (hle cur hg) hf)
    rw [computeRoot_emb]
    rw [one_mul] at this
    exact this
  have c1 := hc qf k1 g1 (by rw [p1]; exact hs.1)
  have c2 := hc pf k2 g2 (by rw [p2]; exact hs.2.1)
  simp only [Nat.cast_mul] at c1 c2 ⊢
  split_ifs
  · rw [c1]
    simp -implicitDefEqProofs only [Res.bind_ok]
    rw [c2]; rfl
  · rfl

/-! ### Products -/

theorem cross_reduce (n1 d1 n2 d2 : ℕ) (h1 : Nat.Coprime n1 d1) (h2 : Nat.Coprime n2 d2) (p1 : 0 < n1) (p2 : 0 < n2) :
    n1 * n2 / Nat.gcd (n1 * n2) (d1 * d2) = (n1 / Nat.gcd n1 d2) * (n2 / Nat.gcd n2 d1) ∧
    d1 * d2 / Nat.gcd (n1 * n2) (d1 * d2) = (d1 / Nat.gcd n2 d1) * (d2 / Nat.gcd n1 d2) := by
  obtain ⟨x1, hx1⟩ := Nat.gcd_dvd_left n1 d2
  obtain ⟨y2, hy2⟩ := Nat.gcd_dvd_right n1 d2
  obtain ⟨x2, hx2⟩ := Nat.gcd_dvd_left n2 d1
  obtain ⟨y1, hy1⟩ := Nat.gcd_dvd_right n2 d1
  have g1p : 0 < Nat.gcd n1 d2 := Nat.gcd_pos_of_pos_left _ p1
  have g2p : 0 < Nat.gcd n2 d1 := Nat.gcd_pos_of_pos_left _ p2
  have c1 : Nat.Coprime x1 y2 := by
    have := Nat.coprime_div_gcd_div_gcd g1p
    rwa [Nat.div_eq_of_eq_mul_right g1p hx1, Nat.div_eq_of_eq_mul_right g1p hy2] at this
  have c2 : Nat.Coprime x2 y1 := by
    have := Nat.coprime_div_gcd_div_gcd g2p
    rwa [Nat.div_eq_of_eq_mul_right g2p hx2, Nat.div_eq_of_eq_mul_right g2p hy1] at this
  have e1 := Nat.div_eq_of_eq_mul_right g1p hx1
  have e2 := Nat.div_eq_of_eq_mul_right g1p hy2
  have e3 := Nat.div_eq_of_eq_mul_right g2p hx2
  have e4 := Nat.div_eq_of_eq_mul_right g2p hy1
  rw [e1, e2, e3, e4]
  have c3 : Nat.Coprime x1 y1 := Nat.Coprime.coprime_dvd_left ⟨Nat.gcd n1 d2, by rw [mul_comm]; exact hx1⟩
    (Nat.Coprime.coprime_dvd_right ⟨Nat.gcd n2 d1, by rw [mul_comm]; exact hy1⟩ h1)
  have c4 : Nat.Coprime x2 y2 := Nat.Coprime.coprime_dvd_left ⟨Nat.gcd n2 d1, by rw [mul_comm]; exact hx2⟩
    (Nat.Coprime.coprime_dvd_right ⟨Nat.gcd n1 d2, by rw [mul_comm]; exact hy2⟩ h2)
  generalize Nat.gcd n1 d2 = u at *
  generalize Nat.gcd n2 d1 = v at *
  have hcop : Nat.gcd (x1 * x2) (y1 * y2) = 1 :=
    Nat.Coprime.mul_left (Nat.Coprime.mul_right c3 c1) (Nat.Coprime.mul_right c2 c4)
  have hg : Nat.gcd (n1 * n2) (d1 * d2) = u * v := by
    rw [hx1, hx2, hy1, hy2, show u * x1 * (v * x2) = (u * v) * (x1 * x2) by ring, show v * y1 * (u * y2) = (u * v) * (y1 * y2) by ring,
      Nat.gcd_mul_left, hcop, mul_one]
  rw [hg]
  refine ⟨Nat.div_eq_of_eq_mul_right (Nat.mul_pos g1p g2p) ?_, Nat.div_eq_of_eq_mul_right (Nat.mul_pos g1p g2p) ?_⟩
  · rw [hx1, hx2]; ring
  · rw [hy1, hy2]; ring

theorem ratio_num_den (q p : ℕ) (h : Nat.Coprime q p) (hp : 0 < p) : ((q : ℚ) / p).num = q ∧ ((q : ℚ) / p).den = p := by
  have h1 := Rat.num_div_eq_of_coprime (a := (q : ℤ)) (b := (p : ℤ)) (by exact_mod_cast hp) (by simpa using h)
  have h2 := Rat.den_div_eq_of_coprime (a := (q : ℤ)) (b := (p : ℤ)) (by exact_mod_cast hp) (by simpa using h)
  push_cast at h1 h2
  exact ⟨h1, by exact_mod_cast h2⟩

theorem fits_valid (r : RootRatio) (h : r.Valid) : Fits64 r.ratio ↔ r.num < 2 ^ 63 ∧ r.den < 2 ^ 63 := by
  obtain ⟨h1, h2⟩ := ratio_num_den r.num r.den h.2.2.2 h.2.1
  unfold Fits64 RootRatio.ratio
  rw [h1, h2]
  exact and_congr_left fun _ => by exact_mod_cast Iff.rfl

theorem rrMk_ratioQ (q p r : ℕ) (hq : 0 < q) : (rrMk q p r).ratio = (q : ℚ) / p := by
  have hg : ((Nat.gcd q p : ℕ) : ℚ) ≠ 0 := by exact_mod_cast (Nat.gcd_pos_of_pos_left p hq).ne'
  simp only [RootRatio.ratio, rrMk]
  rw [Nat.cast_div (Nat.gcd_dvd_left _ _) hg, Nat.cast_div (Nat.gcd_dvd_right _ _) hg, div_div_div_cancel_right₀ hg]

theorem mul64_core (x y : ℕ) : (do
      let q ← i64 (x : ℤ)
      let p ← i64 (y : ℤ)
      pure (⟨q.toNat, p.toNat, 1⟩ : RootRatio)) = if x < 2 ^ 63 ∧ y < 2 ^ 63 then Res.ok (⟨x, y, 1⟩ : RootRatio) else .ub := by
  rw [i64_nat, i64_nat]
  by_cases hx : x < 2 ^ 63
  · by_cases hy : y < 2 ^ 63
    · rw [if_pos hx, if_pos hy, if_pos ⟨hx, hy⟩, Res.bind_ok, Res.bind_ok]; rfl
    · rw [if_pos hx, if_neg hy, if_neg (fun h => hy h.2), Res.bind_ok, Res.bind_ub]
  · rw [if_neg hx, Res.bind_ub, if_neg (fun h => hx h.1)]

/-- C121: the product of two plain ratios compiles exactly when the reduced product fits in 64 bits, and is then that of unbounded integers. -/
theorem C121_multiply (a b : RootRatio) (ha : a.Valid) (hb : b.Valid) (ra : a.root = 1) (rb : b.root = 1) :
    rrMul64 a b = if Fits64 (a.ratio * b.ratio) then rrMul a b else .ub := by
  have hq : 0 < a.num * b.num := Nat.mul_pos ha.1 hb.1
  have hp : 0 < a.den * b.den := Nat.mul_pos ha.2.1 hb.2.1
  have hv := rrMk_valid (a.num * b.num) (a.den * b.den) 1 hq hp (by omega)
  have hr : a.ratio * b.ratio = (rrMk (a.num * b.num) (a.den * b.den) 1).ratio := by
    rw [rrMk_ratioQ _ _ _ hq]
    unfold RootRatio.ratio
    push_cast
    rw [div_mul_div_comm]
  obtain ⟨c1, c2⟩ := cross_reduce a.num a.den b.num b.den ha.2.2.2 hb.2.2.2 ha.1 hb.1
  unfold rrMul64 rrMul
  have hrr : a.root = 1 ∧ b.root = 1 := ⟨ra, rb⟩
  rw [if_pos hrr, if_pos hrr]
  simp only []
  rw [← Nat.cast_mul, ← Nat.cast_mul, ← c1, ← c2]
  have hif : (if Fits64 (a.ratio * b.ratio) then (Res.ok (rrMk (a.num * b.num) (a.den * b.den) 1)) else .ub) =
      if (rrMk (a.num * b.num) (a.den * b.den) 1).num < 2 ^ 63 ∧ (rrMk (a.num * b.num) (a.den * b.den) 1).den < 2 ^ 63 then
        (Res.ok (rrMk (a.num * b.num) (a.den * b.den) 1)) else .ub := by
    rw [hr]
    exact if_congr (fits_valid _ hv) rfl rfl
  rw [hif]
  exact mul64_core _ _

theorem inv_ratio (b : RootRatio) (hb : b.Valid) : (rrMk b.den b.num b.root).ratio = b.ratio⁻¹ := by
  rw [rrMk_ratioQ _ _ _ hb.2.1]
  unfold RootRatio.ratio
  rw [inv_div]

/-- C121: the same for quotients. -/
theorem C121_divide (a b : RootRatio) (ha : a.Valid) (hb : b.Valid) (ra : a.root = 1) (rb : b.root = 1) :
    rrDiv64 a b = if Fits64 (a.ratio / b.ratio) then rrDiv a b else .ub := by
  unfold rrDiv64 rrDiv
  rw [C121_multiply a _ ha (rrMk_valid _ _ _ hb.2.1 hb.1 hb.2.2.1) ra rb, inv_ratio b hb, div_eq_mul_inv]

theorem rrPow_plain (a : RootRatio) (ha : a.Valid) (ra : a.root = 1) (n : ℕ) : rrPow a n = .ok ⟨a.num ^ n, a.den ^ n, 1⟩ := by
  induction n with
  | zero => rfl
  | succ n ih =>
    rw [rrPow, ih, Res.bind_ok]
    unfold rrMul
    rw [if_pos ⟨ra, rfl⟩]
    have hc : Nat.gcd (a.num * a.num ^ n) (a.den * a.den ^ n) = 1 := by
      rw [← pow_succ', ← pow_succ']
      exact Nat.Coprime.pow _ _ ha.2.2.2
    simp only [rrMk, hc, Nat.div_one]
    rw [pow_succ', pow_succ']

/-- C121: the `n`-th power of a plain ratio compiles exactly when the power of numerator and denominator fit. -/
theorem C121_pow (a : RootRatio) (ha : a.Valid) (ra : a.root = 1) (n : ℕ) :
    rrPow64 a n = if Fits64 (a.ratio ^ n) then rrPow a n else .ub := by
  have hpw : ∀ n, (⟨a.num ^ n, a.den ^ n, 1⟩ : RootRatio).Valid := fun n =>
    ⟨Nat.pow_pos ha.1, Nat.pow_pos ha.2.1, Nat.one_pos, Nat.Coprime.pow _ _ ha.2.2.2⟩
  have hrat : ∀ n, a.ratio ^ n = (⟨a.num ^ n, a.den ^ n, 1⟩ : RootRatio).ratio := by
    intro n; unfold RootRatio.ratio; push_cast; rw [div_pow]
  induction n with
  | zero => rw [if_pos (by simp [Fits64])]; rfl
  | succ n ih =>
    rw [rrPow64, ih]
    by_cases h : Fits64 (a.ratio ^ n)
    · rw [if_pos h, rrPow_plain a ha ra n, Res.bind_ok, C121_multiply a _ ha (hpw n) ra rfl, ← hrat n, ← pow_succ', rrPow, rrPow_plain a ha ra n,
        Res.bind_ok]
    · rw [if_neg h, Res.bind_ub, if_neg]
      intro h'
      apply h
      rw [hrat, fits_valid _ (hpw _)] at h' ⊢
      exact ⟨lt_of_le_of_lt (Nat.pow_le_pow_right ha.1 (by omega)) h'.1, lt_of_le_of_lt (Nat.pow_le_pow_right ha.2.1 (by omega)) h'.2⟩

theorem rrRoot_le (r s : RootRatio) (n : ℕ) (h : r.Valid) (hn : 0 < n) (hs : rrRoot r n = .ok s) :
    s.num ≤ r.num ∧ s.den ≤ r.den ∧ s.root ≤ r.root * n := by
  obtain ⟨qf, k1, e1, g1, p1⟩ := factorsOf_ok r.num h.1
  obtain ⟨pf, k2, e2, g2, p2⟩ := factorsOf_ok r.den h.2.1
  unfold rrRoot at hs
  rw [e1, e2] at hs
  simp only [Res.bind_ok] at hs
  have hle : ∀ (cur : List (ℕ × ℕ)), GoodF cur → (cur.map fun e => e.1 ^ (e.2 / (r.root * n))).prod ≤ facProd cur := by
    intro cur hg
    unfold facProd
    have hg2 := hg.2
    clear hg
    induction cur with
    | nil => simp
    | cons e l ih =>
      rw [List.map_cons, List.prod_cons, List.map_cons, List.prod_cons]
      exact Nat.mul_le_mul (Nat.pow_le_pow_right (hg2 e (by simp)).1.one_lt.le (Nat.div_le_self _ _)) (ih fun x hx => hg2 x (by simp [hx]))
  have c1 := computeRoot_emb qf k1 (r.root * n)
  have c2 := computeRoot_emb pf k2 (r.root * n)
  simp only [Nat.cast_mul] at c1 c2 hs
  split_ifs at hs
  · injection hs with hs
    rw [c1, c2] at hs
    subst hs
    simp only [Int.toNat_natCast]
    refine ⟨?_, ?_, Nat.mul_pos h.2.2.1 hn⟩
    · rw [← p1]; exact le_trans (Nat.div_le_self _ _) (hle qf g1)
    · rw [← p2]; exact le_trans (Nat.div_le_self _ _) (hle pf g2)
  · injection hs with hs
    subst hs
    rw [rrMk_of_valid r h]
    exact ⟨le_refl _, le_refl _, le_refl _⟩

/-- The product under the common root, before taking the root: numerator, denominator and root. -/
def mulQ (a b : RootRatio) : ℕ := a.num ^ (b.root / Nat.gcd a.root b.root) * b.num ^ (a.root / Nat.gcd a.root b.root)
/-- See `mulQ`. -/
def mulP (a b : RootRatio) : ℕ := a.den ^ (b.root / Nat.gcd a.root b.root) * b.den ^ (a.root / Nat.gcd a.root b.root)

open Classical in
/-- C121: the product of two roots of ratios compiles exactly when numerator, denominator (before reduction) and the common root fit, and the reduced
numerator and denominator can be factored. -/
theorem C121_multiply_root (a b : RootRatio) (ha : a.Valid) (hb : b.Valid) (hr : ¬ (a.root = 1 ∧ b.root = 1)) :
    rrMul64 a b = if (mulQ a b < 2 ^ 63 ∧ mulP a b < 2 ^ 63 ∧ Nat.lcm a.root b.root < 2 ^ 63) ∧
        ¬ HugePrime (mulQ a b / Nat.gcd (mulQ a b) (mulP a b)) ∧ ¬ HugePrime (mulP a b / Nat.gcd (mulQ a b) (mulP a b)) then
      rrMul a b else .ub := by
  have hG : 0 < Nat.gcd a.root b.root := Nat.gcd_pos_of_pos_left _ ha.2.2.1
  have hR : Nat.gcd a.root b.root * (a.root / Nat.gcd a.root b.root) * (b.root / Nat.gcd a.root b.root) = Nat.lcm a.root b.root := by
    rw [Nat.mul_div_cancel' (Nat.gcd_dvd_left _ _), Nat.lcm, Nat.mul_div_assoc _ (Nat.gcd_dvd_right _ _)]
  have hGr : Nat.gcd a.root b.root * (a.root / Nat.gcd a.root b.root) ≤ Nat.lcm a.root b.root := by
    rw [Nat.mul_div_cancel' (Nat.gcd_dvd_left _ _)]
    exact Nat.le_of_dvd (Nat.lcm_pos ha.2.2.1 hb.2.2.1) (Nat.dvd_lcm_left _ _)
  have hLp : 0 < Nat.lcm a.root b.root := Nat.lcm_pos ha.2.2.1 hb.2.2.1
  have q1 : 1 ≤ a.num ^ (b.root / Nat.gcd a.root b.root) := Nat.one_le_pow _ _ ha.1
  have q2 : 1 ≤ b.num ^ (a.root / Nat.gcd a.root b.root) := Nat.one_le_pow _ _ hb.1
  have d1 : 1 ≤ a.den ^ (b.root / Nat.gcd a.root b.root) := Nat.one_le_pow _ _ ha.2.1
  have d2 : 1 ≤ b.den ^ (a.root / Nat.gcd a.root b.root) := Nat.one_le_pow _ _ hb.2.1
  unfold rrMul64 rrMul
  rw [if_neg hr, if_neg hr]
  simp only [C69_power_nonneg_partial]
  rw [hR]
  rw [C121_power, C121_power, C121_power, C121_power, ← Nat.cast_mul (Nat.gcd a.root b.root), i64_nat]
  unfold mulQ mulP
  generalize hx1 : a.num ^ (b.root / Nat.gcd a.root b.root) = x1 at *
  generalize hx2 : b.num ^ (a.root / Nat.gcd a.root b.root) = x2 at *
  generalize hy1 : a.den ^ (b.root / Nat.gcd a.root b.root) = y1 at *
  generalize hy2 : b.den ^ (a.root / Nat.gcd a.root b.root) = y2 at *
  generalize hs : Nat.gcd a.root b.root * (a.root / Nat.gcd a.root b.root) = s1 at *
  generalize hr2 : b.root / Nat.gcd a.root b.root = r2 at *
  generalize hL : Nat.lcm a.root b.root = L at *
  clear hx1 hx2 hy1 hy2 hs hr2 hL
  by_cases hQ : x1 * x2 < 2 ^ 63
  swap
  · refine Eq.trans ?_ (if_neg (fun h => hQ h.1.1)).symm
    by_cases h1 : x1 < 2 ^ 63
    · rw [if_pos h1, Res.bind_ok]
      by_cases h2 : x2 < 2 ^ 63
      · rw [if_pos h2, Res.bind_ok, ← Nat.cast_mul, i64_nat, if_neg hQ, Res.bind_ub]
      · rw [if_neg h2, Res.bind_ub]
    · rw [if_neg h1, Res.bind_ub]
  rw [if_pos (lt_of_le_of_lt (Nat.le_mul_of_pos_right _ q2) hQ), Res.bind_ok, if_pos (lt_of_le_of_lt (Nat.le_mul_of_pos_left _ q1) hQ), Res.bind_ok,
    ← Nat.cast_mul, i64_nat, if_pos hQ, Res.bind_ok]
  by_cases hP : y1 * y2 < 2 ^ 63
  swap
  · refine Eq.trans ?_ (if_neg (fun h => hP h.1.2.1)).symm
    by_cases h1 : y1 < 2 ^ 63
    · rw [if_pos h1, Res.bind_ok]
      by_cases h2 : y2 < 2 ^ 63
      · rw [if_pos h2, Res.bind_ok, ← Nat.cast_mul, i64_nat, if_neg hP, Res.bind_ub]
      · rw [if_neg h2, Res.bind_ub]
    · rw [if_neg h1, Res.bind_ub]
  rw [if_pos (lt_of_le_of_lt (Nat.le_mul_of_pos_right _ d2) hP), Res.bind_ok, if_pos (lt_of_le_of_lt (Nat.le_mul_of_pos_left _ d1) hP), Res.bind_ok,
    ← Nat.cast_mul, i64_nat, if_pos hP, Res.bind_ok]
  by_cases hLs : L < 2 ^ 63
  swap
  · refine Eq.trans ?_ (if_neg (fun h => hLs h.1.2.2)).symm
    by_cases h1 : s1 < 2 ^ 63
    · rw [if_pos h1, Res.bind_ok, ← Nat.cast_mul, hR, i64_nat, if_neg hLs, Res.bind_ub]
    · rw [if_neg h1, Res.bind_ub]
  rw [if_pos (lt_of_le_of_lt hGr hLs), Res.bind_ok, ← Nat.cast_mul, hR, i64_nat, if_pos hLs, Res.bind_ok]
  simp only [Int.toNat_natCast]
  have hv : (rrMk (x1 * x2) (y1 * y2) L).Valid := rrMk_valid _ _ _ (Nat.mul_pos q1 q2) (Nat.mul_pos d1 d2) hLp
  have hsm : (rrMk (x1 * x2) (y1 * y2) L).Small :=
    ⟨lt_of_le_of_lt (Nat.div_le_self _ _) hQ, lt_of_le_of_lt (Nat.div_le_self _ _) hP, hLs⟩
  rw [C121_root _ 1 hv hsm]
  refine if_congr ?_ rfl rfl
  rw [mul_one]
  exact ⟨fun h => ⟨⟨hQ, hP, hLs⟩, h.2⟩, fun h => ⟨hLs, h.2⟩⟩

/-- C121 (no silent wrap-around): a product that compiles is the product of unbounded integers and fits. -/
theorem C121_multiply_sound (a b r : RootRatio) (ha : a.Valid) (hb : b.Valid) (h : rrMul64 a b = .ok r) :
    rrMul a b = .ok r ∧ r.Valid ∧ r.Small := by
  obtain ⟨s, e1, e2, e3⟩ := C34_multiply a b ha hb
  by_cases hr : a.root = 1 ∧ b.root = 1
  · rw [C121_multiply a b ha hb hr.1 hr.2] at h
    split_ifs at h with hf
    have := e1.symm.trans h
    injection this with this; subst this
    refine ⟨h, e2, ?_⟩
    have hmk : rrMul a b = .ok (rrMk (a.num * b.num) (a.den * b.den) 1) := by unfold rrMul; rw [if_pos hr]
    rw [hmk] at h
    injection h with h
    have hq : 0 < a.num * b.num := Nat.mul_pos ha.1 hb.1
    have : s.ratio = a.ratio * b.ratio := by
      rw [← h, rrMk_ratioQ _ _ _ hq]
      unfold RootRatio.ratio
      push_cast
      rw [div_mul_div_comm]
    rw [← this, fits_valid s e2] at hf
    refine ⟨hf.1, hf.2, ?_⟩
    rw [← h]; show 1 < 2 ^ 63; norm_num
  · classical
    rw [C121_multiply_root a b ha hb hr] at h
    split_ifs at h with hf
    have := e1.symm.trans h
    injection this with this; subst this
    refine ⟨h, e2, ?_⟩
    unfold rrMul at h
    rw [if_neg hr] at h
    simp only [C69_power_nonneg_partial] at h
    have hG : 0 < Nat.gcd a.root b.root := Nat.gcd_pos_of_pos_left _ ha.2.2.1
    have hR : Nat.gcd a.root b.root * (a.root / Nat.gcd a.root b.root) * (b.root / Nat.gcd a.root b.root) = Nat.lcm a.root b.root := by
      rw [Nat.mul_div_cancel' (Nat.gcd_dvd_left _ _), Nat.lcm, Nat.mul_div_assoc _ (Nat.gcd_dvd_right _ _)]
    rw [hR] at h
    have hLp : 0 < Nat.lcm a.root b.root := Nat.lcm_pos ha.2.2.1 hb.2.2.1
    have hQp : 0 < mulQ a b := Nat.mul_pos (Nat.pow_pos ha.1) (Nat.pow_pos hb.1)
    have hPp : 0 < mulP a b := Nat.mul_pos (Nat.pow_pos ha.2.1) (Nat.pow_pos hb.2.1)
    obtain ⟨l1, l2, l3⟩ := rrRoot_le _ _ 1 (rrMk_valid (mulQ a b) (mulP a b) _ hQp hPp hLp) (by omega) h
    rw [mul_one] at l3
    exact ⟨lt_of_le_of_lt (le_trans l1 (Nat.div_le_self _ _)) hf.1.1, lt_of_le_of_lt (le_trans l2 (Nat.div_le_self _ _)) hf.1.2.1,
      lt_of_le_of_lt l3 hf.1.2.2⟩

/-- C121: quotients. -/
theorem C121_divide_sound (a b r : RootRatio) (ha : a.Valid) (hb : b.Valid) (h : rrDiv64 a b = .ok r) :
    rrDiv a b = .ok r ∧ r.Valid ∧ r.Small :=
  C121_multiply_sound a _ r ha (rrMk_valid _ _ _ hb.2.1 hb.1 hb.2.2.1) h

/-- C121: powers. -/
theorem C121_pow_sound (a : RootRatio) (ha : a.Valid) : ∀ (n : ℕ) (r : RootRatio), rrPow64 a n = .ok r →
    rrPow a n = .ok r ∧ r.Valid ∧ r.Small := by
  intro n
  induction n with
  | zero =>
    intro r h
    injection h with h
    subst h
    exact ⟨rfl, rrMk_valid _ _ _ (by omega) (by omega) (by omega), by norm_num [RootRatio.Small, rrMk]⟩
  | succ n ih =>
    intro r h
    rw [rrPow64] at h
    cases hp : rrPow64 a n with
    | ub => rw [hp] at h; cases h
    | ok p =>
      obtain ⟨i1, i2, i3⟩ := ih p hp
      rw [hp, Res.bind_ok] at h
      obtain ⟨j1, j2, j3⟩ := C121_multiply_sound a p r ha i2 h
      exact ⟨by rw [rrPow, i1, Res.bind_ok]; exact j1, j2, j3⟩

/-- C121: roots. -/
theorem C121_root_sound (a r : RootRatio) (n : ℕ) (ha : a.Valid) (hs : a.Small) (hn : 0 < n) (h : rrRoot64 a n = .ok r) :
    rrRoot a n = .ok r ∧ r.Valid ∧ r.Small := by
  classical
  rw [C121_root a n ha hs] at h
  split_ifs at h with hf
  obtain ⟨s, e1, e2, -⟩ := C34_root a n ha hn
  have := e1.symm.trans h
  injection this with this; subst this
  obtain ⟨l1, l2, l3⟩ := rrRoot_le _ _ n ha hn h
  exact ⟨h, e2, lt_of_le_of_lt l1 hs.1, lt_of_le_of_lt l2 hs.2.1, lt_of_le_of_lt l3 hf.1⟩

/-! ### The common scale of two scales -/

theorem gcd_cast (m n : ℕ) : Int.gcd (m : ℤ) (n : ℤ) = Nat.gcd m n := rfl

open Classical in
/-- C121: the common scale of two plain scales compiles exactly when the least common multiple of the denominators fits and it and the greatest common
divisor of the numerators can be factored. -/
theorem C121_common (a b : RootRatio) (ha : a.Valid) (hb : b.Valid) (sa : a.Small) (sb : b.Small) (ra : a.root = 1) (rb : b.root = 1) :
    rrCommon64 a b = if Nat.lcm a.den b.den < 2 ^ 63 ∧ ¬ HugePrime (Nat.gcd a.num b.num) ∧ ¬ HugePrime (Nat.lcm a.den b.den) then
      .ok ⟨Nat.gcd a.num b.num, Nat.lcm a.den b.den, 1⟩ else .ub := by
  have hg : 0 < Nat.gcd a.num b.num := Nat.gcd_pos_of_pos_left _ ha.1
  have hl : 0 < Nat.lcm a.den b.den := Nat.lcm_pos ha.2.1 hb.2.1
  have hcop : Nat.Coprime (Nat.gcd a.num b.num) (Nat.lcm a.den b.den) := by
    have h1 : Nat.Coprime (Nat.gcd a.num b.num) a.den := Nat.Coprime.coprime_dvd_left (Nat.gcd_dvd_left _ _) ha.2.2.2
    have h2 : Nat.Coprime (Nat.gcd a.num b.num) b.den := Nat.Coprime.coprime_dvd_left (Nat.gcd_dvd_right _ _) hb.2.2.2
    exact Nat.Coprime.coprime_dvd_right (Nat.lcm_dvd_mul _ _) (Nat.Coprime.mul_right h1 h2)
  have hlcm : a.den / Nat.gcd a.den b.den * b.den = Nat.lcm a.den b.den := by
    rw [Nat.lcm, Nat.div_mul_right_comm (Nat.gcd_dvd_left _ _)]
  unfold rrCommon64
  rw [ra, rb, C121_power, C121_power, C121_power, C121_power, pow_one, pow_one, pow_one, pow_one, if_pos sa.1, if_pos sb.1, if_pos sa.2.1, if_pos sb.2.1,
    Res.bind_ok, Res.bind_ok, Res.bind_ok, Res.bind_ok, ← Nat.cast_mul, i64_nat, if_pos (by norm_num), Res.bind_ok]
  simp only [gcd_cast]
  rw [show (a.den : ℤ).tdiv ((Nat.gcd a.den b.den : ℕ) : ℤ) = ((a.den / Nat.gcd a.den b.den : ℕ) : ℤ) from (Int.ofNat_tdiv _ _).symm, ← Nat.cast_mul,
    hlcm, i64_nat]
  by_cases h : Nat.lcm a.den b.den < 2 ^ 63
  swap
  · rw [if_neg h, Res.bind_ub]
    exact (if_neg fun h' => h h'.1).symm
  rw [if_pos h, Res.bind_ok]
  simp only [Int.toNat_natCast]
  have hmk : rrMk (Nat.gcd a.num b.num) (Nat.lcm a.den b.den) (1 * 1) = ⟨Nat.gcd a.num b.num, Nat.lcm a.den b.den, 1⟩ := by
    simp only [rrMk, hcop.gcd_eq_one, Nat.div_one, mul_one]
  rw [hmk]
  have hv : (⟨Nat.gcd a.num b.num, Nat.lcm a.den b.den, 1⟩ : RootRatio).Valid := ⟨hg, hl, Nat.one_pos, hcop⟩
  have hsm : (⟨Nat.gcd a.num b.num, Nat.lcm a.den b.den, 1⟩ : RootRatio).Small :=
    ⟨lt_of_le_of_lt (Nat.le_of_dvd ha.1 (Nat.gcd_dvd_left _ _)) sa.1, h, by norm_num⟩
  rw [C121_root _ 1 hv hsm]
  have hroot : rrRoot ⟨Nat.gcd a.num b.num, Nat.lcm a.den b.den, 1⟩ 1 = .ok ⟨Nat.gcd a.num b.num, Nat.lcm a.den b.den, 1⟩ := by
    obtain ⟨r, e1, e2, e3⟩ := C34_root _ 1 hv (by omega)
    rw [e1]
    congr 1
    refine C34_root_rational _ r 1 _ _ hv (by omega) hg hl hcop e1 ?_
    rw [e3]
    simp [RootRatio.val]
  rw [hroot]
  refine if_congr ?_ rfl rfl
  exact ⟨fun h' => ⟨h, h'.2⟩, fun h' => ⟨by norm_num, h'.2⟩⟩

theorem bind_inv {α β : Type} {x : Res α} {f : α → Res β} {r : β} (h : (x >>= f) = .ok r) : ∃ y, x = .ok y ∧ f y = .ok r := by
  cases x with
  | ub => cases h
  | ok y => exact ⟨y, rfl, h⟩

theorem powI64_inv {a n : ℕ} {w : ℤ} (h : powI64 a n = .ok w) : w = ((a ^ n : ℕ) : ℤ) ∧ a ^ n < 2 ^ 63 := by
  rw [C121_power] at h
  split_ifs at h with hf
  injection h with h
  exact ⟨h.symm, hf⟩

theorem i64_nat_inv {m : ℕ} {w : ℤ} (h : i64 (m : ℤ) = .ok w) : w = (m : ℤ) ∧ m < 2 ^ 63 := by
  rw [i64_nat] at h
  split_ifs at h with hf
  injection h with h
  exact ⟨h.symm, hf⟩

/-- C121: the common scale of any two scales. -/
theorem C121_common_sound (a b r : RootRatio) (ha : a.Valid) (hb : b.Valid) (h : rrCommon64 a b = .ok r) :
    rrCommon a b = .ok r ∧ r.Valid ∧ r.Small := by
  obtain ⟨s, e1, e2, -⟩ := C34_common a b ha hb
  unfold rrCommon64 at h
  obtain ⟨w1, h1, h⟩ := bind_inv h
  obtain ⟨w2, h2, h⟩ := bind_inv h
  obtain ⟨w3, h3, h⟩ := bind_inv h
  obtain ⟨w4, h4, h⟩ := bind_inv h
  obtain ⟨w5, h5, h⟩ := bind_inv h
  obtain ⟨w6, h6, h⟩ := bind_inv h
  obtain ⟨rfl, b1⟩ := powI64_inv h1
  obtain ⟨rfl, b2⟩ := powI64_inv h2
  obtain ⟨rfl, b3⟩ := powI64_inv h3
  obtain ⟨rfl, b4⟩ := powI64_inv h4
  rw [← Nat.cast_mul] at h5
  obtain ⟨rfl, b5⟩ := i64_nat_inv h5
  rw [gcd_cast, ← Int.ofNat_tdiv, ← Nat.cast_mul] at h6
  obtain ⟨rfl, b6⟩ := i64_nat_inv h6
  rw [gcd_cast] at h
  simp only [Int.toNat_natCast] at h
  unfold rrCommon at e1 ⊢
  simp only [C69_power_nonneg_partial] at e1 ⊢
  have p1 : 0 < a.num ^ b.root := Nat.pow_pos ha.1
  have p3 : 0 < a.den ^ b.root := Nat.pow_pos ha.2.1
  have p4 : 0 < b.den ^ a.root := Nat.pow_pos hb.2.1
  generalize a.num ^ b.root = x1 at *
  generalize b.num ^ a.root = x2 at *
  generalize a.den ^ b.root = y1 at *
  generalize b.den ^ a.root = y2 at *
  have hR : 0 < a.root * b.root := Nat.mul_pos ha.2.2.1 hb.2.2.1
  have hg : 0 < Nat.gcd x1 x2 := Nat.gcd_pos_of_pos_left _ p1
  have hl : 0 < y1 / Nat.gcd y1 y2 * y2 :=
    Nat.mul_pos (Nat.div_pos (Nat.le_of_dvd p3 (Nat.gcd_dvd_left _ _)) (Nat.gcd_pos_of_pos_left _ p3)) p4
  have hv := rrMk_valid (Nat.gcd x1 x2) (y1 / Nat.gcd y1 y2 * y2) (a.root * b.root) hg hl hR
  have hs : (rrMk (Nat.gcd x1 x2) (y1 / Nat.gcd y1 y2 * y2) (a.root * b.root)).Small :=
    ⟨lt_of_le_of_lt (le_trans (Nat.div_le_self _ _) (Nat.le_of_dvd p1 (Nat.gcd_dvd_left _ _))) b1, lt_of_le_of_lt (Nat.div_le_self _ _) b6, b5⟩
  exact C121_root_sound _ r 1 hv hs (by omega) h

/-! ### Expressions -/

/-- The dimension and the scale of a type are valid template arguments of 64 bits. -/
def QTy.Ok64 (t : QTy) : Prop := t.Valid ∧ t.dim.Small ∧ t.scal.Small

/-- See `QTy.Ok64`. -/
def QT.Ok64 : QT → Prop
  | .num => True
  | .qty t => t.Ok64

/-- The targets of the conversions in an expression are types that exist. -/
def QEx.Casts64 : QEx → Prop
  | .var _ => True
  | .lit _ => True
  | .add a b => a.Casts64 ∧ b.Casts64
  | .sub a b => a.Casts64 ∧ b.Casts64
  | .mul a b => a.Casts64 ∧ b.Casts64
  | .div a b => a.Casts64 ∧ b.Casts64
  | .neg a => a.Casts64
  | .pow _ a => a.Casts64
  | .root _ a => a.Casts64
  | .cast t a => t.Ok64 ∧ a.Casts64
  | .abs a => a.Casts64
  | .fmax a b => a.Casts64 ∧ b.Casts64
  | .fmin a b => a.Casts64 ∧ b.Casts64
  | .hypot a b => a.Casts64 ∧ b.Casts64

theorem tAdd64_sound (x y t : QT) (hx : x.Ok64) (hy : y.Ok64) (h : tAdd64 x y = .ok t) : tAdd x y = .ok t ∧ t.Ok64 := by
  cases x with
  | num => cases y with
    | num => injection h with h; subst h; exact ⟨rfl, trivial⟩
    | qty b => cases h
  | qty a => cases y with
    | num => cases h
    | qty b =>
      simp only [tAdd64] at h
      split_ifs at h with hd
      obtain ⟨c, hc, h⟩ := bind_inv h
      obtain ⟨_, h1, h⟩ := bind_inv h
      obtain ⟨_, h2, h⟩ := bind_inv h
      injection h with h
      subst h
      unfold commonQuantity64 at hc
      split_ifs at hc with ho
      obtain ⟨s, hs, hc⟩ := bind_inv hc
      injection hc with hc
      subst hc
      obtain ⟨k1, k2, k3⟩ := C121_common_sound _ _ s hx.1.2 hy.1.2 hs
      obtain ⟨j1, -, -⟩ := C121_divide_sound _ _ _ hx.1.2 k2 h1
      obtain ⟨j2, -, -⟩ := C121_divide_sound _ _ _ hy.1.2 k2 h2
      refine ⟨?_, ⟨hx.1.1, k2⟩, hx.2.1, k3⟩
      simp only [tAdd, if_neg hd, commonQuantity, if_neg ho, k1, Res.bind_ok, Res.pure_eq, j1, j2]

theorem tMul64_sound (x y t : QT) (hx : x.Ok64) (hy : y.Ok64) (h : tMul64 x y = .ok t) : tMul x y = .ok t ∧ t.Ok64 := by
  cases x with
  | num => cases y with
    | num => injection h with h; subst h; exact ⟨rfl, trivial⟩
    | qty b => injection h with h; subst h; exact ⟨rfl, hy⟩
  | qty a => cases y with
    | num => injection h with h; subst h; exact ⟨rfl, hx⟩
    | qty b =>
      simp only [tMul64] at h
      split_ifs at h with ho
      obtain ⟨d, h1, h⟩ := bind_inv h
      obtain ⟨s, h2, h⟩ := bind_inv h
      injection h with h
      subst h
      obtain ⟨k1, k2, k3⟩ := C121_multiply_sound _ _ _ hx.1.1 hy.1.1 h1
      obtain ⟨j1, j2, j3⟩ := C121_multiply_sound _ _ _ hx.1.2 hy.1.2 h2
      refine ⟨?_, ⟨k2, j2⟩, k3, j3⟩
      simp only [tMul, tyMul, if_neg ho, k1, j1, Res.bind_ok, Res.pure_eq]

theorem tDiv64_sound (x y t : QT) (hx : x.Ok64) (hy : y.Ok64) (h : tDiv64 x y = .ok t) : tDiv x y = .ok t ∧ t.Ok64 := by
  cases x with
  | num => cases y with
    | num => injection h with h; subst h; exact ⟨rfl, trivial⟩
    | qty b =>
      simp only [tDiv64] at h
      obtain ⟨d, h1, h⟩ := bind_inv h
      obtain ⟨s, h2, h⟩ := bind_inv h
      injection h with h
      subst h
      obtain ⟨k1, k2, k3⟩ := C121_divide_sound _ _ _ valid_one hy.1.1 h1
      obtain ⟨j1, j2, j3⟩ := C121_divide_sound _ _ _ valid_one hy.1.2 h2
      refine ⟨?_, ⟨k2, j2⟩, k3, j3⟩
      simp only [tDiv, tyInv, k1, j1, Res.bind_ok, Res.pure_eq]
  | qty a => cases y with
    | num => injection h with h; subst h; exact ⟨rfl, hx⟩
    | qty b =>
      simp only [tDiv64] at h
      split_ifs at h with ho
      obtain ⟨d, h1, h⟩ := bind_inv h
      obtain ⟨s, h2, h⟩ := bind_inv h
      injection h with h
      subst h
      obtain ⟨k1, k2, k3⟩ := C121_divide_sound _ _ _ hx.1.1 hy.1.1 h1
      obtain ⟨j1, j2, j3⟩ := C121_divide_sound _ _ _ hx.1.2 hy.1.2 h2
      refine ⟨?_, ⟨k2, j2⟩, k3, j3⟩
      simp only [tDiv, tyDiv, if_neg ho, k1, j1, Res.bind_ok, Res.pure_eq]

theorem tSame_sound (x y t : QT) (hx : x.Ok64) (h : tSame x y = .ok t) : t.Ok64 := by
  unfold tSame at h
  split_ifs at h
  injection h with h; subst h; exact hx

/-- C121 (no silent wrap-around): an expression of quantities that compiles with 64-bit integers has the type that unbounded integers give (so that
everything C120 says applies), and that type fits. -/
theorem C121_expressions_partial (Γ : ℕ → QT) (hΓ : ∀ i, (Γ i).Ok64) (e : QEx) (hc : e.Casts64) (t : QT) (h : e.type64 Γ = .ok t) :
    e.type Γ = .ok t ∧ t.Ok64 := by
  induction e generalizing t with
  | var i => injection h with h; subst h; exact ⟨rfl, hΓ i⟩
  | lit x => injection h with h; subst h; exact ⟨rfl, trivial⟩
  | add a b iha ihb =>
    obtain ⟨x, hx, h⟩ := bind_inv h
    obtain ⟨y, hy, h⟩ := bind_inv h
    obtain ⟨a1, a2⟩ := iha hc.1 x hx
    obtain ⟨b1, b2⟩ := ihb hc.2 y hy
    obtain ⟨c1, c2⟩ := tAdd64_sound x y t a2 b2 h
    exact ⟨by simp only [QEx.type, a1, b1, Res.bind_ok, c1], c2⟩
  | sub a b iha ihb =>
    obtain ⟨x, hx, h⟩ := bind_inv h
    obtain ⟨y, hy, h⟩ := bind_inv h
    obtain ⟨a1, a2⟩ := iha hc.1 x hx
    obtain ⟨b1, b2⟩ := ihb hc.2 y hy
    obtain ⟨c1, c2⟩ := tAdd64_sound x y t a2 b2 h
    exact ⟨by simp only [QEx.type, a1, b1, Res.bind_ok, c1], c2⟩
  | mul a b iha ihb =>
    obtain ⟨x, hx, h⟩ := bind_inv h
    obtain ⟨y, hy, h⟩ := bind_inv h
    obtain ⟨a1, a2⟩ := iha hc.1 x hx
    obtain ⟨b1, b2⟩ := ihb hc.2 y hy
    obtain ⟨c1, c2⟩ := tMul64_sound x y t a2 b2 h
    exact ⟨by simp only [QEx.type, a1, b1, Res.bind_ok, c1], c2⟩
  | div a b iha ihb =>
    obtain ⟨x, hx, h⟩ := bind_inv h
    obtain ⟨y, hy, h⟩ := bind_inv h
    obtain ⟨a1, a2⟩ := iha hc.1 x hx
    obtain ⟨b1, b2⟩ := ihb hc.2 y hy
    obtain ⟨c1, c2⟩ := tDiv64_sound x y t a2 b2 h
    exact ⟨by simp only [QEx.type, a1, b1, Res.bind_ok, c1], c2⟩
  | neg a ih => exact ih hc t h
  | abs a ih => exact ih hc t h
  | pow n a ih =>
    obtain ⟨x, hx, h⟩ := bind_inv h
    obtain ⟨a1, a2⟩ := ih hc x hx
    cases x with
    | num => injection h with h; subst h; exact ⟨by simp only [QEx.type, a1, Res.bind_ok, tPow], trivial⟩
    | qty u =>
      simp only [tPow64] at h
      obtain ⟨d, h1, h⟩ := bind_inv h
      obtain ⟨s, h2, h⟩ := bind_inv h
      injection h with h; subst h
      obtain ⟨k1, k2, k3⟩ := C121_pow_sound _ a2.1.1 _ _ h1
      obtain ⟨j1, j2, j3⟩ := C121_pow_sound _ a2.1.2 _ _ h2
      refine ⟨?_, ⟨k2, j2⟩, k3, j3⟩
      simp only [QEx.type, a1, Res.bind_ok, tPow, k1, j1, Res.pure_eq]
  | root n a ih =>
    obtain ⟨x, hx, h⟩ := bind_inv h
    obtain ⟨a1, a2⟩ := ih hc x hx
    cases x with
    | num => injection h with h; subst h; exact ⟨by simp only [QEx.type, a1, Res.bind_ok, tRoot], trivial⟩
    | qty u =>
      simp only [tRoot64] at h
      obtain ⟨d, h1, h⟩ := bind_inv h
      obtain ⟨s, h2, h⟩ := bind_inv h
      injection h with h; subst h
      obtain ⟨k1, k2, k3⟩ := C121_root_sound _ _ _ a2.1.1 a2.2.1 (by omega) h1
      obtain ⟨j1, j2, j3⟩ := C121_root_sound _ _ _ a2.1.2 a2.2.2 (by omega) h2
      refine ⟨?_, ⟨k2, j2⟩, k3, j3⟩
      simp only [QEx.type, a1, Res.bind_ok, tRoot, k1, j1, Res.pure_eq]
  | cast u a ih =>
    obtain ⟨x, hx, h⟩ := bind_inv h
    obtain ⟨a1, a2⟩ := ih hc.2 x hx
    cases x with
    | num => cases h
    | qty w =>
      simp only [tCast64] at h
      split_ifs at h with hd
      obtain ⟨_, h1, h⟩ := bind_inv h
      injection h with h; subst h
      obtain ⟨k1, -, -⟩ := C121_divide_sound _ _ _ a2.1.2 hc.1.1.2 h1
      refine ⟨?_, hc.1⟩
      simp only [QEx.type, a1, Res.bind_ok, tCast, if_neg hd, k1, Res.pure_eq]
  | fmax a b iha ihb =>
    obtain ⟨x, hx, h⟩ := bind_inv h
    obtain ⟨y, hy, h⟩ := bind_inv h
    obtain ⟨a1, a2⟩ := iha hc.1 x hx
    obtain ⟨b1, b2⟩ := ihb hc.2 y hy
    exact ⟨by simp only [QEx.type, a1, b1, Res.bind_ok, h], tSame_sound x y t a2 h⟩
  | fmin a b iha ihb =>
    obtain ⟨x, hx, h⟩ := bind_inv h
    obtain ⟨y, hy, h⟩ := bind_inv h
    obtain ⟨a1, a2⟩ := iha hc.1 x hx
    obtain ⟨b1, b2⟩ := ihb hc.2 y hy
    exact ⟨by simp only [QEx.type, a1, b1, Res.bind_ok, h], tSame_sound x y t a2 h⟩
  | hypot a b iha ihb =>
    obtain ⟨x, hx, h⟩ := bind_inv h
    obtain ⟨y, hy, h⟩ := bind_inv h
    obtain ⟨a1, a2⟩ := iha hc.1 x hx
    obtain ⟨b1, b2⟩ := ihb hc.2 y hy
    exact ⟨by simp only [QEx.type, a1, b1, Res.bind_ok, h], tSame_sound x y t a2 h⟩

/-- C121: values.  An expression of quantities whose type the compiler can compute with 64-bit integers, evaluated where it is defined, gives a
quantity of that type whose amount is the one of the physical expression. -/
theorem C121_values (env : ℕ → QVal) (E : ℕ → Exps) (henv : ∀ i, (env i).ty.Has (E i)) (h64 : ∀ i, (env i).ty.Ok64) (e : QEx)
    (hc : e.CastsPlain) (hc64 : e.Casts64) (t : QT) (h : (e.type64 fun i => (env i).ty) = .ok t)
    (hd : e.Defined fun i => (env i).amount) :
    ∃ v, e.eval env = .ok v ∧ v.ty = t ∧ v.amount = e.amount (fun i => (env i).amount) := by
  have h1 := (C121_expressions_partial _ h64 e hc64 t h).1
  obtain ⟨v, hv⟩ := (C120_static env E henv e hc).2 ⟨⟨t, h1⟩, hd⟩
  obtain ⟨k1, k2, -⟩ := C120_sound env E henv e hc v hv
  rw [h1] at k1
  injection k1 with k1
  exact ⟨v, hv, k1.symm, k2⟩

/-! ### Conversions and powers of units -/

/-- C121: a conversion between two units with plain scales compiles exactly when the dimensions agree and the conversion factor, in lowest terms, fits. -/
theorem C121_conversion (u t : QTy) (hu : u.Ok64) (ht : t.Ok64) (ru : u.scal.root = 1) (rt : t.scal.root = 1) :
    (∃ x, tCast64 t (.qty u) = .ok x) ↔ u.dim = t.dim ∧ Fits64 (u.scal.ratio / t.scal.ratio) := by
  unfold tCast64
  simp only []
  by_cases hd : u.dim = t.dim
  · rw [if_neg (not_not.2 hd), C121_divide _ _ hu.1.2 ht.1.2 ru rt]
    by_cases hf : Fits64 (u.scal.ratio / t.scal.ratio)
    · rw [if_pos hf]
      obtain ⟨z, z1, -⟩ := C34_divide u.scal t.scal hu.1.2 ht.1.2
      rw [z1, Res.bind_ok]
      exact ⟨fun _ => ⟨hd, hf⟩, fun _ => ⟨_, rfl⟩⟩
    · rw [if_neg hf, Res.bind_ub]
      exact ⟨fun ⟨_, hx⟩ => (by injection hx), fun h => absurd h.2 hf⟩
  · rw [if_pos hd]
    exact ⟨fun ⟨_, hx⟩ => (by injection hx), fun h => absurd h.1 hd⟩

theorem tyLength_ok64 (s : RootRatio) (h : s.Valid) (hs : s.Small) : (tyLength s).Ok64 :=
  have e : (tyLength s).dim = ⟨2, 1, 1⟩ := (by decide : baseDim 2 = ⟨2, 1, 1⟩)
  ⟨⟨by rw [e]; refine ⟨?_, ?_, ?_, ?_⟩ <;> decide, h⟩, by rw [e]; refine ⟨?_, ?_, ?_⟩ <;> norm_num, hs⟩

/-- C121 is false for some units of the library: `millimeter<>(1_ly)`, `millimeter<>(1_pc)`, `nanometer<>(1_au)`, `attometer<>(exameter)` do not
compile, while `meter<>(1_ly)` does. -/
theorem C121_conversion_false :
    (¬ ∃ x, tCast64 (tyLength ⟨1, 1000, 1⟩) (.qty (tyLength ⟨9460730472580800, 1, 1⟩)) = .ok x) ∧
    (¬ ∃ x, tCast64 (tyLength ⟨1, 1000, 1⟩) (.qty (tyLength ⟨30856775814671900, 1, 1⟩)) = .ok x) ∧
    (¬ ∃ x, tCast64 (tyLength ⟨1, 1000000000, 1⟩) (.qty (tyLength ⟨149597870700, 1, 1⟩)) = .ok x) ∧
    (¬ ∃ x, tCast64 (tyLength ⟨1, 1000000000000000000, 1⟩) (.qty (tyLength ⟨1000000000000000000, 1, 1⟩)) = .ok x) ∧
    (∃ x, tCast64 (tyLength ⟨1, 1, 1⟩) (.qty (tyLength ⟨9460730472580800, 1, 1⟩)) = .ok x) := by
  have ok : ∀ q p : ℕ, 0 < q → 0 < p → Nat.Coprime q p → q < 2 ^ 63 → p < 2 ^ 63 → (tyLength ⟨q, p, 1⟩).Ok64 :=
    fun q p h1 h2 h3 h4 h5 => tyLength_ok64 _ ⟨h1, h2, Nat.one_pos, h3⟩ ⟨h4, h5, by norm_num⟩
  have key : ∀ q p : ℕ, 0 < q → 0 < p → q < 2 ^ 63 → p < 2 ^ 63 →
      ((∃ x, tCast64 (tyLength ⟨1, p, 1⟩) (.qty (tyLength ⟨q, 1, 1⟩)) = .ok x) ↔ q * p < 2 ^ 63) := by
    intro q p h1 h2 h3 h4
    rw [C121_conversion _ _ (ok q 1 h1 (by omega) (Nat.coprime_one_right q) h3 (by norm_num))
      (ok 1 p (by omega) h2 (Nat.coprime_one_left p) (by norm_num) h4) rfl rfl]
    have e : (tyLength ⟨q, 1, 1⟩).scal.ratio / (tyLength ⟨1, p, 1⟩).scal.ratio = ((q * p : ℕ) : ℚ) := by
      simp [tyLength, RootRatio.ratio]
    rw [e]
    unfold Fits64
    rw [Rat.num_natCast, Rat.den_natCast]
    constructor
    · rintro ⟨-, h, -⟩; exact_mod_cast h
    · intro h; exact ⟨rfl, by exact_mod_cast h, by norm_num⟩
  refine ⟨?_, ?_, ?_, ?_, ?_⟩
  · rw [key _ _ (by norm_num) (by norm_num) (by norm_num) (by norm_num)]; norm_num
  · rw [key _ _ (by norm_num) (by norm_num) (by norm_num) (by norm_num)]; norm_num
  · rw [key _ _ (by norm_num) (by norm_num) (by norm_num) (by norm_num)]; norm_num
  · rw [key _ _ (by norm_num) (by norm_num) (by norm_num) (by norm_num)]; norm_num
  · rw [key _ _ (by norm_num) (by norm_num) (by norm_num) (by norm_num)]; norm_num

/-- C121: `units::pow<n>` of a length in metres compiles exactly for `n ≤ 62`. -/
theorem C121_pow_length (n : ℕ) : (∃ x, tPow64 n (.qty (tyLength one1)) = .ok x) ↔ n ≤ 62 := by
  have v2 : (tyLength one1).dim.Valid := by refine ⟨?_, ?_, ?_, ?_⟩ <;> decide
  have v1 : (tyLength one1).scal.Valid := by refine ⟨?_, ?_, ?_, ?_⟩ <;> decide
  have r2 : (tyLength one1).dim.ratio = ((2 : ℕ) : ℚ) := by
    have : (tyLength one1).dim = ⟨2, 1, 1⟩ := by decide
    rw [this]; simp [RootRatio.ratio]
  have r1 : (tyLength one1).scal.ratio = 1 := by simp [tyLength, one1, RootRatio.ratio]
  unfold tPow64
  simp only []
  have f1 : Fits64 ((1 : ℚ) ^ n) := by rw [one_pow]; simp [Fits64]
  rw [C121_pow _ v2 rfl, C121_pow _ v1 rfl, r1, r2, if_pos f1]
  obtain ⟨z, z1, -⟩ := C34_power _ v1 n
  rw [z1]
  obtain ⟨w, w1, -⟩ := C34_power _ v2 n
  rw [w1]
  have hf : Fits64 (((2 : ℕ) : ℚ) ^ n) ↔ n ≤ 62 := by
    rw [← Nat.cast_pow]
    unfold Fits64
    rw [Rat.num_natCast, Rat.den_natCast]
    constructor
    · rintro ⟨h, -⟩
      have h' : 2 ^ n < 2 ^ 63 := by exact_mod_cast h
      have := (Nat.pow_lt_pow_iff_right (by norm_num : 1 < 2)).1 h'
      omega
    · intro h
      have h' : 2 ^ n < 2 ^ 63 := (Nat.pow_lt_pow_iff_right (by norm_num : 1 < 2)).2 (by omega)
      exact ⟨by exact_mod_cast h', by norm_num⟩
  by_cases h : Fits64 (((2 : ℕ) : ℚ) ^ n)
  · rw [if_pos h, Res.bind_ok, Res.bind_ok]
    exact ⟨fun _ => hf.1 h, fun _ => ⟨_, rfl⟩⟩
  · rw [if_neg h, Res.bind_ub]
    exact ⟨fun ⟨_, hx⟩ => (by injection hx), fun h' => absurd (hf.2 h') h⟩

/-- C121 is false for reordered expressions: with `x` a length to the power 40, `x * x / x` does not compile but `x * (x / x)` does. -/
theorem C121_order_false (Γ : ℕ → QT) (h0 : Γ 0 = .qty ⟨⟨2 ^ 40, 1, 1⟩, one1, 0⟩) :
    (QEx.div (.mul (.var 0) (.var 0)) (.var 0)).type64 Γ = .ub ∧
    (QEx.mul (.var 0) (.div (.var 0) (.var 0))).type64 Γ = .ok (Γ 0) := by
  have v2 : (⟨2 ^ 40, 1, 1⟩ : RootRatio).Valid := ⟨by norm_num, by norm_num, by norm_num, Nat.coprime_one_right _⟩
  have v1 : one1.Valid := by refine ⟨?_, ?_, ?_, ?_⟩ <;> decide
  have q2 : (⟨2 ^ 40, 1, 1⟩ : RootRatio).ratio = ((2 ^ 40 : ℕ) : ℚ) := by simp [RootRatio.ratio]
  have q1 : one1.ratio = 1 := by simp [one1, RootRatio.ratio]
  have f1 : Fits64 1 := by simp [Fits64]
  have m11 : rrMul64 one1 one1 = .ok one1 := by
    rw [C121_multiply _ _ v1 v1 rfl rfl, q1, mul_one, if_pos f1]; decide
  have d11 : rrDiv64 one1 one1 = .ok one1 := by
    rw [C121_divide _ _ v1 v1 rfl rfl, q1, div_one, if_pos f1]; decide
  have d22 : rrDiv64 ⟨2 ^ 40, 1, 1⟩ ⟨2 ^ 40, 1, 1⟩ = .ok one1 := by
    rw [C121_divide _ _ v2 v2 rfl rfl, q2, div_self (by positivity), if_pos f1]; decide
  have m21 : rrMul64 ⟨2 ^ 40, 1, 1⟩ one1 = .ok ⟨2 ^ 40, 1, 1⟩ := by
    rw [C121_multiply _ _ v2 v1 rfl rfl, q2, q1, mul_one, if_pos]
    · decide
    · unfold Fits64; rw [Rat.num_natCast, Rat.den_natCast]; norm_num
  have m22 : rrMul64 ⟨2 ^ 40, 1, 1⟩ ⟨2 ^ 40, 1, 1⟩ = .ub := by
    rw [C121_multiply _ _ v2 v2 rfl rfl, q2, ← Nat.cast_mul, if_neg]
    unfold Fits64; rw [Rat.num_natCast, Rat.den_natCast]; norm_num
  constructor
  · simp -implicitDefEqProofs only [QEx.type64, h0, Res.bind_ok, tMul64, m22, Res.bind_ub, ne_eq, not_true_eq_false, if_false]
  · simp -implicitDefEqProofs only [QEx.type64, h0, Res.bind_ok, tMul64, tDiv64, d22, d11, m21, m11, ne_eq, not_true_eq_false, if_false, Res.pure_eq]

open Classical in
/-- C121: the sum of two quantities with plain scales `a` and `b` compiles exactly when dimensions and offsets agree, the common scale
`gcd / lcm` exists in 64 bits and both conversion factors to it fit. -/
theorem C121_add (a b : QTy) (ha : a.Ok64) (hb : b.Ok64) (ra : a.scal.root = 1) (rb : b.scal.root = 1) :
    tAdd64 (.qty a) (.qty b) =
      if a.dim = b.dim ∧ a.off = b.off ∧
          (Nat.lcm a.scal.den b.scal.den < 2 ^ 63 ∧ ¬ HugePrime (Nat.gcd a.scal.num b.scal.num) ∧ ¬ HugePrime (Nat.lcm a.scal.den b.scal.den)) ∧
          Fits64 (a.scal.ratio / (Nat.gcd a.scal.num b.scal.num / Nat.lcm a.scal.den b.scal.den)) ∧
          Fits64 (b.scal.ratio / (Nat.gcd a.scal.num b.scal.num / Nat.lcm a.scal.den b.scal.den)) then
        .ok (.qty ⟨a.dim, ⟨Nat.gcd a.scal.num b.scal.num, Nat.lcm a.scal.den b.scal.den, 1⟩, a.off⟩)
      else .ub := by
  unfold tAdd64 commonQuantity64
  simp only []
  by_cases hd : a.dim = b.dim
  swap
  · rw [if_pos hd, if_neg (fun h => hd h.1)]
  rw [if_neg (not_not.2 hd)]
  by_cases ho : a.off = b.off
  swap
  · rw [if_pos ho, Res.bind_ub, if_neg (fun h => ho h.2.1)]
  rw [if_neg (not_not.2 ho), C121_common _ _ ha.1.2 hb.1.2 ha.2.2 hb.2.2 ra rb]
  by_cases hc : Nat.lcm a.scal.den b.scal.den < 2 ^ 63 ∧ ¬ HugePrime (Nat.gcd a.scal.num b.scal.num) ∧ ¬ HugePrime (Nat.lcm a.scal.den b.scal.den)
  swap
  · rw [if_neg hc, Res.bind_ub, Res.bind_ub, if_neg (fun h => hc h.2.2.1)]
  have hv : (⟨Nat.gcd a.scal.num b.scal.num, Nat.lcm a.scal.den b.scal.den, 1⟩ : RootRatio).Valid :=
    ⟨Nat.gcd_pos_of_pos_left _ ha.1.2.1, Nat.lcm_pos ha.1.2.2.1 hb.1.2.2.1, Nat.one_pos,
      Nat.Coprime.coprime_dvd_right (Nat.lcm_dvd_mul _ _) (Nat.Coprime.mul_right (Nat.Coprime.coprime_dvd_left (Nat.gcd_dvd_left _ _) ha.1.2.2.2.2)
        (Nat.Coprime.coprime_dvd_left (Nat.gcd_dvd_right _ _) hb.1.2.2.2.2))⟩
  have hr : (⟨Nat.gcd a.scal.num b.scal.num, Nat.lcm a.scal.den b.scal.den, 1⟩ : RootRatio).ratio =
    (Nat.gcd a.scal.num b.scal.num : ℚ) / Nat.lcm a.scal.den b.scal.den := rfl
  rw [if_pos hc, Res.bind_ok, Res.pure_eq, Res.bind_ok]
  simp only []
  rw [C121_divide _ _ ha.1.2 hv ra rfl, C121_divide _ _ hb.1.2 hv rb rfl, hr]
  obtain ⟨z, z1, -⟩ := C34_divide _ _ ha.1.2 hv
  obtain ⟨w, w1, -⟩ := C34_divide _ _ hb.1.2 hv
  rw [z1, w1]
  by_cases f1 : Fits64 (a.scal.ratio / (Nat.gcd a.scal.num b.scal.num / Nat.lcm a.scal.den b.scal.den))
  swap
  · rw [if_neg f1, Res.bind_ub, if_neg (fun h => f1 h.2.2.2.1)]
  by_cases f2 : Fits64 (b.scal.ratio / (Nat.gcd a.scal.num b.scal.num / Nat.lcm a.scal.den b.scal.den))
  swap
  · rw [if_pos f1, Res.bind_ok, if_neg f2, Res.bind_ub, if_neg (fun h => f2 h.2.2.2.2)]
  rw [if_pos f1, if_pos f2, Res.bind_ok, Res.bind_ok, if_pos ⟨hd, ho, hc, f1, f2⟩, Res.pure_eq]

/-- C121 is false for a sum: an exametre plus an attometre does not compile. -/
theorem C121_add_false :
    tAdd64 (.qty (tyLength ⟨1000000000000000000, 1, 1⟩)) (.qty (tyLength ⟨1, 1000000000000000000, 1⟩)) = .ub := by
  rw [C121_add _ _ (tyLength_ok64 _ ⟨by norm_num, by norm_num, Nat.one_pos, Nat.coprime_one_right _⟩ ⟨by norm_num, by norm_num, by norm_num⟩)
    (tyLength_ok64 _ ⟨by norm_num, by norm_num, Nat.one_pos, Nat.coprime_one_left _⟩ ⟨by norm_num, by norm_num, by norm_num⟩) rfl rfl, if_neg]
  rintro ⟨-, -, -, h, -⟩
  have e : (tyLength ⟨1000000000000000000, 1, 1⟩).scal.ratio / ((Nat.gcd 1000000000000000000 1 : ℕ) / (Nat.lcm 1 1000000000000000000 : ℕ)) =
      ((1000000000000000000000000000000000000 : ℕ) : ℚ) := by
    rw [Nat.gcd_one_right, Nat.lcm_one_left]
    simp [tyLength, RootRatio.ratio]
    norm_num
  have h' : Fits64 ((tyLength ⟨1000000000000000000, 1, 1⟩).scal.ratio / ((Nat.gcd 1000000000000000000 1 : ℕ) / (Nat.lcm 1 1000000000000000000 : ℕ))) := h
  rw [e] at h'
  have h2 := h'.1
  rw [Rat.num_natCast] at h2
  norm_num at h2

/-- Hypotheses met: a kilometre plus a metre compiles and is a length in metres. -/
example : tAdd64 (.qty (tyLength ⟨1000, 1, 1⟩)) (.qty (tyLength one1)) = .ok (.qty (tyLength one1)) := by
  rw [C121_add _ _ (tyLength_ok64 _ ⟨by norm_num, by norm_num, Nat.one_pos, Nat.coprime_one_right _⟩ ⟨by norm_num, by norm_num, by norm_num⟩)
    (tyLength_ok64 _ ⟨by decide, by decide, by decide, by decide⟩ ⟨by norm_num [one1], by norm_num [one1], by norm_num [one1]⟩) rfl rfl, if_pos]
  · decide
  · have g : Nat.gcd (tyLength ⟨1000, 1, 1⟩).scal.num (tyLength one1).scal.num = 1 := by decide
    have l : Nat.lcm (tyLength ⟨1000, 1, 1⟩).scal.den (tyLength one1).scal.den = 1 := by decide
    rw [g, l]
    have e1 : (tyLength ⟨1000, 1, 1⟩).scal.ratio / (((1 : ℕ) : ℚ) / ((1 : ℕ) : ℚ)) = ((1000 : ℕ) : ℚ) := by simp [tyLength, RootRatio.ratio]
    have e2 : (tyLength one1).scal.ratio / (((1 : ℕ) : ℚ) / ((1 : ℕ) : ℚ)) = ((1 : ℕ) : ℚ) := by simp [tyLength, one1, RootRatio.ratio]
    rw [e1, e2]
    refine ⟨by decide, by decide, ⟨by norm_num, fun h => ?_, fun h => ?_⟩, ?_, ?_⟩
    · exact absurd h.1 Nat.not_prime_one
    · exact absurd h.1 Nat.not_prime_one
    · unfold Fits64; rw [Rat.num_natCast, Rat.den_natCast]; norm_num
    · unfold Fits64; rw [Rat.num_natCast, Rat.den_natCast]; norm_num

/-- Hypotheses met: `pow<2>` of a length has an environment with `Ok64` variables. -/
example : ∀ i : ℕ, ((fun _ => QT.qty (tyLength one1)) i : QT).Ok64 := fun _ =>
  tyLength_ok64 _ ⟨by decide, by decide, by decide, by decide⟩ ⟨by norm_num [one1], by norm_num [one1], by norm_num [one1]⟩

end SciCpp
