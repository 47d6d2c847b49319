import Verif.Spec.Units
import Verif.Proofs.Arith
import Mathlib.Analysis.SpecialFunctions.Pow.Real
import Mathlib.Data.Nat.Nth
import Mathlib.Data.Nat.Factorization.Basic
import Mathlib.NumberTheory.Bertrand
/-
  Property theorems C31 (prime factorisation), C32 (is_prime, next_prime, prime_list), C33
  (compile-time integer arithmetic) and C34 (root_ratio).
-/
namespace SciCpp

/-! ## C31 — prime_factors -/

/-- C31: for every `n ≥ 1`, `prime_factors<n>` terminates, never writes outside its array of
`ct_log2(n)` slots, and its non-zero entries are primes in increasing order with positive exponents
and product `n`; the remaining slots are zero. -/
theorem C31_prime_factors (n fuel : ℕ) (hn : 1 ≤ n) (hf : 2 * n ≤ fuel) :
    ∃ (fs : List (ℕ × ℕ)) (k : ℕ),
      primeFactorsOf fuel n
        = .ok (some ((fs.map fun e => ((e.1 : ℤ), (e.2 : ℤ))) ++ List.replicate k (0, 0))) ∧
      fs.Pairwise (fun a b => a.1 < b.1) ∧ (∀ e ∈ fs, e.1.Prime ∧ 0 < e.2) ∧
      (fs.map fun e => e.1 ^ e.2).prod = n := by
  obtain ⟨cur, k, h1, h2, h3⟩ := primeFactorsOf_ok n fuel hn hf
  exact ⟨cur, k, h1, h2.1, h2.2, h3⟩

theorem factorization_facProd (cur : List (ℕ × ℕ)) (h : GoodF cur) (p : ℕ) :
    (facProd cur).factorization p = ((cur.filter fun e => e.1 = p).map fun e => e.2).sum := by
  induction cur with
  | nil => simp [facProd]
  | cons e l ih =>
    obtain ⟨h1, h2⟩ := h
    have hl : GoodF l := ⟨(List.pairwise_cons.mp h1).2, fun e he => h2 e (by simp [he])⟩
    have hpos : facProd l ≠ 0 := by
      have := two_pow_le_facProd l hl.2
      have := Nat.two_pow_pos l.length
      omega
    have hep := (h2 e (by simp)).1
    have : facProd (e :: l) = e.1 ^ e.2 * facProd l := by simp [facProd]
    rw [this, Nat.factorization_mul (pow_ne_zero _ hep.ne_zero) hpos, Finsupp.add_apply, ih hl,
      hep.factorization_pow]
    by_cases he : e.1 = p
    · simp [he]
    · simp [he]

/-- C31: every exponent is the multiplicity of its prime, and every prime factor of `n` is listed. -/
theorem C31_multiplicities (n : ℕ) (hn : 1 ≤ n) :
    ∃ (fs : List (ℕ × ℕ)) (k : ℕ),
      factorsOf n = .ok ((fs.map fun e => ((e.1 : ℤ), (e.2 : ℤ))) ++ List.replicate k (0, 0)) ∧
      ∀ p m : ℕ, (p, m) ∈ fs ↔ p.Prime ∧ 0 < m ∧ n.factorization p = m := by
  obtain ⟨cur, k, h1, h2, h3⟩ := factorsOf_ok n hn
  refine ⟨cur, k, h1, fun p m => ?_⟩
  have key : ∀ p m : ℕ, (p, m) ∈ cur → (facProd cur).factorization p = m := by
    intro p m hmem
    rw [factorization_facProd cur h2 p]
    obtain ⟨l1, l2, rfl⟩ := List.append_of_mem hmem
    have hpw := List.pairwise_append.mp h2.1
    have hn1 : l1.filter (fun e => e.1 = p) = [] := by
      rw [List.filter_eq_nil_iff]
      intro e he
      have := hpw.2.2 e he (p, m) (by simp)
      simp at this ⊢; omega
    have hn2 : l2.filter (fun e => e.1 = p) = [] := by
      rw [List.filter_eq_nil_iff]
      intro e he
      have := (List.pairwise_cons.mp hpw.2.1).1 e he
      simp at this ⊢; omega
    rw [List.filter_append, List.filter_cons]
    simp [hn1, hn2]
  constructor
  · intro hmem
    exact ⟨(h2.2 _ hmem).1, (h2.2 _ hmem).2, by rw [← h3]; exact key p m hmem⟩
  · rintro ⟨hp, hm, hf⟩
    rw [← h3, factorization_facProd cur h2 p] at hf
    have hne : cur.filter (fun e => e.1 = p) ≠ [] := by
      intro hc; rw [hc] at hf; simp at hf; omega
    obtain ⟨e, he⟩ := List.exists_mem_of_ne_nil _ hne
    rw [List.mem_filter] at he
    have hep : e.1 = p := by simpa using he.2
    have h5 := key e.1 e.2 he.1
    rw [hep, factorization_facProd cur h2 p, hf] at h5
    have : e = (p, m) := by ext <;> simp [hep, h5]
    rw [← this]; exact he.1

example : primeFactorsOf 721 360 = .ok (some [(2, 3), (3, 2), (5, 1), (0, 0), (0, 0), (0, 0), (0, 0),
    (0, 0), (0, 0)]) := by
  have : (ctLog2 360).toNat = 9 := by
    have := ctLog2_nat 360
    have h : Nat.log 2 360 = 8 := by decide +kernel
    rw [h] at this
    rw [show (360 : ℤ) = ((360 : ℕ) : ℤ) by rfl, this]; rfl
  unfold primeFactorsOf
  rw [this]
  decide +kernel

/-! ## C32 — is_prime, next_prime -/

/-- C32 (partial): for every `n ≥ 2`, `is_prime(n)` terminates and decides primality.  Missing:
`n = 1` and negative `n` (see the next theorem). -/
theorem C32_is_prime_partial (n fuel : ℕ) (hn : 2 ≤ n) (hf : n ≤ 6 * fuel) :
    isPrime (fuel + 1) n = some (decide n.Prime) :=
  isPrime_ok n fuel hn hf

/-- C32 is false of the code for `1` and for every negative number coprime to 6, which it declares
prime. -/
theorem C32_one_and_negative_false (n : ℤ) (fuel : ℕ) (h : n = 1 ∨ (n < 0 ∧ ¬ 2 ∣ n ∧ ¬ 3 ∣ n)) :
    isPrime (fuel + 1) n = some true ∧ ¬ Prime n.toNat := by
  have hprime : ¬ Prime n.toNat := by
    rcases h with rfl | h
    · exact not_prime_one
    · rw [Int.toNat_of_nonpos (by omega)]; exact not_prime_zero
  refine ⟨?_, hprime⟩
  unfold isPrime
  have h2 : ¬ (n.tmod 2 = 0 ∨ n.tmod 3 = 0) := by
    rintro (hc | hc)
    · have := Int.dvd_of_tmod_eq_zero hc
      rcases h with rfl | h
      · norm_num at this
      · exact h.2.1 this
    · have := Int.dvd_of_tmod_eq_zero hc
      rcases h with rfl | h
      · norm_num at this
      · exact h.2.2 this
  rw [if_neg (by omega), if_neg h2, isPrimeLoop, if_neg (by omega)]

/-- C32: `next_prime(a)` for `a ≥ 1` terminates within `a` candidates (Bertrand) and returns the least
prime above `a`. -/
theorem C32_next_prime (a fuel : ℕ) (ha : 1 ≤ a) (hf : a ≤ fuel) :
    ∃ q : ℕ, nextPrime fuel a = some (q : ℤ) ∧ q.Prime ∧ a < q ∧ ∀ p : ℕ, p.Prime → a < p → q ≤ p := by
  obtain ⟨r, hr1, hr2, hr3⟩ := Nat.exists_prime_lt_and_le_two_mul a (by omega)
  have hex : ∃ q, Nat.Prime q ∧ a < q := ⟨r, hr1, hr2⟩
  classical
  have hs := Nat.find_spec hex
  have hmin : ∀ p : ℕ, p.Prime → a < p → Nat.find hex ≤ p := fun p hp hlt => Nat.find_min' hex ⟨hp, hlt⟩
  have hle := hmin r hr1 hr2
  exact ⟨_, nextPrime_ok _ hs.1 fuel a ha hs.2 hmin (by omega), hs.1, hs.2, hmin⟩

/-- C32 is false of the code below 1: `next_prime(0)` is 1, and `next_prime(-2)` is `-1`. -/
theorem C32_next_prime_false : nextPrime 1 0 = some 1 ∧ nextPrime 1 (-2) = some (-1) := by
  decide +kernel

/-- C32: `prime_list<N>` is `1` followed by the first `N - 1` primes in order: the prime ids of the
base dimensions are pairwise distinct. -/
theorem C32_prime_list (N first fuel : ℕ) (h1 : 1 ≤ first) (hf : ∀ i ≤ N, 2 ^ i * first ≤ fuel) :
    ∃ l : List ℕ, primeListFrom fuel N first = some (l.map fun v : ℕ => (v : ℤ)) ∧ l.length = N ∧
      (∀ v, l.head? = some v → v = first) ∧ l.Pairwise (· < ·) ∧
      (∀ p ∈ l.tail, p.Prime) ∧
      (∀ p : ℕ, p.Prime → first < p → (∃ v, l.getLast? = some v ∧ p ≤ v) → p ∈ l) := by
  induction N generalizing first with
  | zero => exact ⟨[], rfl, rfl, by simp, by simp, by simp, by simp⟩
  | succ N ih =>
    rw [primeListFrom]
    by_cases hN : N = 0
    · subst hN
      refine ⟨[first], by simp, rfl, by simp, by simp, by simp, ?_⟩
      intro p hp hlt ⟨v, hv, hle⟩
      simp at hv; omega
    · rw [if_neg hN]
      obtain ⟨q, e1, e2, e3, e4⟩ := C32_next_prime first fuel h1 (by simpa using hf 0 (by omega))
      have hq2 : q ≤ 2 * first := by
        obtain ⟨r, hr1, hr2, hr3⟩ := Nat.exists_prime_lt_and_le_two_mul first (by omega)
        exact le_trans (e4 r hr1 hr2) hr3
      obtain ⟨l, f1, f2, f3, f4, f5, f6⟩ := ih q (by omega) (fun i hi => by
        have := hf (i + 1) (by omega)
        calc 2 ^ i * q ≤ 2 ^ i * (2 * first) := Nat.mul_le_mul_left _ hq2
          _ = 2 ^ (i + 1) * first := by ring
          _ ≤ fuel := this)
      rw [e1]
      simp only [f1]
      have hlne : l ≠ [] := by intro hc; rw [hc] at f2; simp at f2; omega
      obtain ⟨v0, rest, rfl⟩ := List.exists_cons_of_ne_nil hlne
      have hv0 : v0 = q := f3 v0 (by simp)
      subst hv0
      refine ⟨first :: v0 :: rest, by simp, by simp; simpa using f2, by simp, ?_, ?_, ?_⟩
      · rw [List.pairwise_cons]
        refine ⟨?_, f4⟩
        intro b hb
        rcases List.mem_cons.mp hb with rfl | hb
        · exact e3
        · have := (List.pairwise_cons.mp f4).1 b hb; omega
      · intro p hp
        simp only [List.tail_cons] at hp
        rcases List.mem_cons.mp hp with rfl | hp
        · exact e2
        · exact f5 p (by simpa using hp)
      · intro p hp hlt ⟨v, hv, hle⟩
        rw [List.getLast?_cons_cons] at hv
        rcases Nat.lt_or_ge v0 p with h | h
        · exact List.mem_cons_of_mem _ (f6 p hp h ⟨v, hv, hle⟩)
        · have := e4 p hp hlt
          have : p = v0 := by omega
          simp [this]

example : primeListFrom 4096 11 1 = some [1, 2, 3, 5, 7, 11, 13, 17, 19, 23, 29] := by decide +kernel

/-! ## C33 — ct_log2, power, ct_root -/

/-- C33: `ct_log2(n) = ⌊log2 n⌋ + 1` for every `n` (and 1 for `n ≤ 1`). -/
theorem C33_ct_log2 (n : ℕ) : ctLog2 n = (Nat.log 2 n + 1 : ℕ) ∧ (1 ≤ n → (n : ℤ) < 2 ^ (ctLog2 n).toNat) ∧
    (1 ≤ n → (2 : ℤ) ^ ((ctLog2 n).toNat - 1) ≤ n) := by
  refine ⟨ctLog2_nat n, fun h => ?_, fun h => ?_⟩
  · rw [ctLog2_nat]
    have := Nat.lt_pow_succ_log_self (b := 2) (by omega) n
    exact_mod_cast this
  · rw [ctLog2_nat]
    have := Nat.pow_log_le_self 2 (x := n) (by omega)
    simp only [Int.toNat_natCast, Nat.add_sub_cancel]
    exact_mod_cast this

/-- C33: `power(x, n) = x^n` for `n ≥ 0` in every monoid. -/
theorem C33_power {M : Type*} [Monoid M] (x : M) (n : ℕ) : powSq x n = x ^ n := C69_power_nonneg_partial x n

/-- C33: whenever the Newton iteration of `ct_root<N>(x)` stops, it returns the exact non-negative
`N`-th root of `x ≥ 0` (exact arithmetic; floating point rounding is not modelled). -/
theorem C33_ct_root {K : Type} [Field K] [LinearOrder K] [IsStrictOrderedRing K] (N : ℕ) (hN : 1 ≤ N)
    (fuel : ℕ) (x r : K) (hx : 0 ≤ x) (h : ctRoot N fuel x = some r) : r ^ N = x ∧ 0 ≤ r := by
  unfold ctRoot at h
  split_ifs at h with h1
  · injection h with h; rw [h1, ← h, pow_one]; exact ⟨rfl, hx⟩
  · have hNK : (N : K) ≠ 0 := by exact_mod_cast (by omega : N ≠ 0)
    have hN0 : (0 : K) < N := by exact_mod_cast (by omega : 0 < N)
    have hN1 : (0 : K) ≤ N - 1 := by
      have : (1 : K) ≤ N := by exact_mod_cast hN
      linarith
    have hexp : ((N : ℤ) - 1) = ((N - 1 : ℕ) : ℤ) := by omega
    have key : 0 < x → ∀ (fuel : ℕ) (curr prev : K), 0 < curr →
        (curr = prev → curr ^ N = x) → newtonRoot N x fuel curr prev = some r → r ^ N = x ∧ 0 ≤ r := by
      intro hx0 fuel
      induction fuel with
      | zero => intro curr prev _ _ h; simp [newtonRoot] at h
      | succ fuel ih =>
        intro curr prev hpos hc h
        rw [newtonRoot] at h
        split_ifs at h with h2
        · injection h with h; rw [← h]; exact ⟨hc h2, hpos.le⟩
        · refine ih _ curr ?_ ?_ h
          · rw [hexp, C69_power_nonneg_partial]
            apply div_pos _ hN0
            have h4 : 0 < x / curr ^ (N - 1) := div_pos hx0 (pow_pos hpos _)
            have h5 : 0 ≤ ((N : K) - 1) * curr := mul_nonneg hN1 hpos.le
            linarith
          · intro heq
            rw [heq]
            rw [hexp, C69_power_nonneg_partial, div_eq_iff hNK] at heq
            have h3 : x / curr ^ (N - 1) = curr := by linear_combination heq
            rw [div_eq_iff (pow_ne_zero _ hpos.ne')] at h3
            rw [h3, ← pow_succ', Nat.sub_add_cancel hN]
    rcases hx.lt_or_eq with hx0 | hx0
    · exact key hx0 fuel x 0 hx0 (fun h => absurd h hx0.ne') h
    · cases fuel with
      | zero => simp [newtonRoot] at h
      | succ f =>
        rw [newtonRoot, ← hx0, if_pos rfl] at h
        injection h with h
        rw [← h, ← hx0]
        exact ⟨zero_pow (by omega), le_refl _⟩

example : ctRoot 2 10 (0 : ℚ) = some 0 := by decide +kernel
example : ctRoot 3 10 (1 : ℚ) = some 1 := by
  simp [ctRoot, newtonRoot, C69_power]

/-! ## C34 — root_ratio -/

theorem rrMk_valid (q p r : ℕ) (hq : 0 < q) (hp : 0 < p) (hr : 0 < r) : (rrMk q p r).Valid :=
  ⟨Nat.div_pos (Nat.le_of_dvd hq (Nat.gcd_dvd_left _ _)) (Nat.gcd_pos_of_pos_left _ hq),
   Nat.div_pos (Nat.le_of_dvd hp (Nat.gcd_dvd_right _ _)) (Nat.gcd_pos_of_pos_left _ hq), hr,
   Nat.coprime_div_gcd_div_gcd (Nat.gcd_pos_of_pos_left _ hq)⟩

theorem rrMk_ratio (q p r : ℕ) (hq : 0 < q) :
    ((rrMk q p r).num : ℝ) / (rrMk q p r).den = (q : ℝ) / p := by
  have hg : ((Nat.gcd q p : ℕ) : ℝ) ≠ 0 := by
    exact_mod_cast (Nat.gcd_pos_of_pos_left p hq).ne'
  simp only [rrMk]
  rw [Nat.cast_div (Nat.gcd_dvd_left _ _) hg, Nat.cast_div (Nat.gcd_dvd_right _ _) hg,
    div_div_div_cancel_right₀ hg]

theorem rrMk_val (q p r : ℕ) (hq : 0 < q) : (rrMk q p r).val = ((q : ℝ) / p) ^ ((1 : ℝ) / r) := by
  unfold RootRatio.val
  rw [rrMk_ratio q p r hq]; rfl

theorem rrMk_of_valid (r : RootRatio) (h : r.Valid) (k : ℕ) : rrMk r.num r.den k = ⟨r.num, r.den, k⟩ := by
  obtain ⟨_, _, _, h4⟩ := h
  simp [rrMk, Nat.Coprime.gcd_eq_one h4]

theorem RootRatio.val_pos (r : RootRatio) (h : r.Valid) : 0 < r.val :=
  Real.rpow_pos_of_pos (div_pos (by exact_mod_cast h.1) (by exact_mod_cast h.2.1)) _

theorem computeRoot_emb (cur : List (ℕ × ℕ)) (k R : ℕ) :
    computeRoot (embF cur k) R = ((cur.map fun e => e.1 ^ (e.2 / R)).prod : ℕ) := by
  unfold computeRoot embF
  have hz : ∀ (k : ℕ) (a : ℤ), (List.replicate k ((0, 0) : ℤ × ℤ)).foldl
      (fun res f => res * powSq f.1 (f.2.tdiv R)) a = a := by
    intro k
    induction k with
    | zero => intro a; rfl
    | succ k ih =>
      intro a
      rw [List.replicate_succ, List.foldl_cons, ih]
      simp [C69_power]
  have hc : ∀ (cur : List (ℕ × ℕ)) (a : ℤ), (cur.map fun e => ((e.1 : ℤ), (e.2 : ℤ))).foldl
      (fun res f => res * powSq f.1 (f.2.tdiv R)) a = a * ((cur.map fun e => e.1 ^ (e.2 / R)).prod : ℕ) := by
    intro cur
    induction cur with
    | nil => intro a; simp
    | cons e l ih =>
      intro a
      rw [List.map_cons, List.foldl_cons, ih, List.map_cons, List.prod_cons]
      simp only
      rw [show (e.2 : ℤ).tdiv (R : ℤ) = ((e.2 / R : ℕ) : ℤ) from (Int.ofNat_tdiv _ _).symm,
        C69_power_nonneg_partial]
      push_cast; ring
  rw [List.foldl_append, hz, hc]; simp

theorem computeRoot_pow (cur : List (ℕ × ℕ)) (k R : ℕ) (h : isExactRoot (embF cur k) R = true) :
    ((cur.map fun e => e.1 ^ (e.2 / R)).prod) ^ R = facProd cur := by
  have hall : ∀ e ∈ cur, R ∣ e.2 := by
    intro e he
    unfold isExactRoot embF at h
    rw [List.all_append, Bool.and_eq_true, List.all_eq_true] at h
    have := h.1 ((e.1 : ℤ), (e.2 : ℤ)) (List.mem_map.mpr ⟨e, he, rfl⟩)
    exact (tmod_eq_zero_iff _ _).mp (by simpa using this)
  clear h
  induction cur with
  | nil => simp [facProd]
  | cons e l ih =>
    have hd : e.2 / R * R = e.2 := Nat.div_mul_cancel (hall e (by simp))
    have := ih (fun e he => hall e (by simp [he]))
    simp only [facProd, List.map_cons, List.prod_cons] at this ⊢
    rw [mul_pow, this, ← pow_mul, hd]

theorem rpow_root (a : ℝ) (ha : 0 ≤ a) (R : ℕ) (hR : 0 < R) : (a ^ R) ^ ((1 : ℝ) / R) = a := by
  rw [one_div]; exact Real.pow_rpow_inv_natCast ha (by omega)

/-- C34: taking a root: the result is well formed and denotes the root. -/
theorem C34_root (rr : RootRatio) (n : ℕ) (h : rr.Valid) (hn : 0 < n) :
    ∃ r, rrRoot rr n = .ok r ∧ r.Valid ∧ r.val = rr.val ^ ((1 : ℝ) / n) := by
  obtain ⟨h1, h2, h3, h4⟩ := h
  have hR : 0 < rr.root * n := Nat.mul_pos h3 hn
  obtain ⟨qf, k1, e1, g1, p1⟩ := factorsOf_ok rr.num h1
  obtain ⟨pf, k2, e2, g2, p2⟩ := factorsOf_ok rr.den h2
  have hval : rr.val ^ ((1 : ℝ) / n) = ((rr.num : ℝ) / rr.den) ^ ((1 : ℝ) / (rr.root * n : ℕ)) := by
    unfold RootRatio.val
    rw [← Real.rpow_mul (by positivity)]
    congr 1
    push_cast
    rw [div_mul_div_comm, one_mul]
  unfold rrRoot
  rw [e1, e2]
  simp only [Res.bind_ok]
  split_ifs with hex
  · rw [Bool.and_eq_true] at hex
    have c1 := computeRoot_pow qf k1 _ hex.1
    have c2 := computeRoot_pow pf k2 _ hex.2
    rw [p1] at c1
    rw [p2] at c2
    rw [computeRoot_emb, computeRoot_emb]
    simp only [Int.toNat_natCast]
    set q := (qf.map fun e => e.1 ^ (e.2 / (rr.root * n))).prod with hq
    set p := (pf.map fun e => e.1 ^ (e.2 / (rr.root * n))).prod with hp
    have hq0 : 0 < q := by
      rcases Nat.eq_zero_or_pos q with h0 | h0
      · rw [h0, zero_pow (by omega)] at c1; omega
      · exact h0
    have hp0 : 0 < p := by
      rcases Nat.eq_zero_or_pos p with h0 | h0
      · rw [h0, zero_pow (by omega)] at c2; omega
      · exact h0
    refine ⟨_, rfl, rrMk_valid q p 1 hq0 hp0 (by omega), ?_⟩
    rw [hval, rrMk_val q p 1 hq0, ← c1, ← c2]
    push_cast
    rw [← div_pow]
    have := rpow_root ((q : ℝ) / p) (by positivity) (rr.root * n) hR
    push_cast at this
    rw [this]; simp
  · exact ⟨_, rfl, rrMk_valid _ _ _ h1 h2 hR, by rw [hval, rrMk_val _ _ _ h1]⟩

theorem val_root_eq (q p r : ℕ) (a b : RootRatio) (x y : ℕ) (ha : a.Valid) (hb : b.Valid)
    (hx : a.root * x = r) (hy : b.root * y = r) (hr : 0 < r)
    (hq : q = a.num ^ x * b.num ^ y) (hp : p = a.den ^ x * b.den ^ y) :
    ((q : ℝ) / p) ^ ((1 : ℝ) / r) = a.val * b.val := by
  have han : (0 : ℝ) ≤ (a.num : ℝ) / a.den := by positivity
  have hbn : (0 : ℝ) ≤ (b.num : ℝ) / b.den := by positivity
  have key : ∀ (c : RootRatio) (z : ℕ), c.Valid → c.root * z = r →
      (((c.num : ℝ) / c.den) ^ z) ^ ((1 : ℝ) / r) = c.val := by
    intro c z hc hz
    unfold RootRatio.val
    rw [← Real.rpow_natCast, ← Real.rpow_mul (by positivity)]
    congr 1
    have hc0 : (c.root : ℝ) ≠ 0 := by exact_mod_cast hc.2.2.1.ne'
    have hz0 : (z : ℝ) ≠ 0 := by
      intro h; have : z = 0 := by exact_mod_cast h
      rw [this] at hz; omega
    rw [← hz]; push_cast; field_simp
  rw [hq, hp]
  push_cast
  rw [mul_div_mul_comm, ← div_pow, ← div_pow, Real.mul_rpow (by positivity) (by positivity),
    key a x ha hx, key b y hb hy]

/-- C34: multiplication. -/
theorem C34_multiply (a b : RootRatio) (ha : a.Valid) (hb : b.Valid) :
    ∃ r, rrMul a b = .ok r ∧ r.Valid ∧ r.val = a.val * b.val := by
  unfold rrMul
  split_ifs with h
  · refine ⟨_, rfl, rrMk_valid _ _ _ (Nat.mul_pos ha.1 hb.1) (Nat.mul_pos ha.2.1 hb.2.1) (by omega), ?_⟩
    rw [rrMk_val _ _ _ (Nat.mul_pos ha.1 hb.1)]
    exact val_root_eq _ _ 1 a b 1 1 ha hb (by omega) (by omega) (by omega) (by simp) (by simp)
  · simp only [C69_power_nonneg_partial]
    have hG : 0 < Nat.gcd a.root b.root := Nat.gcd_pos_of_pos_left _ ha.2.2.1
    set G := Nat.gcd a.root b.root with hGd
    have d1 : G * (a.root / G) = a.root := Nat.mul_div_cancel' (Nat.gcd_dvd_left _ _)
    have d2 : G * (b.root / G) = b.root := Nat.mul_div_cancel' (Nat.gcd_dvd_right _ _)
    have hr1 : 0 < a.root / G := by
      rcases Nat.eq_zero_or_pos (a.root / G) with h0 | h0
      · rw [h0] at d1; have := ha.2.2.1; omega
      · exact h0
    have hr2 : 0 < b.root / G := by
      rcases Nat.eq_zero_or_pos (b.root / G) with h0 | h0
      · rw [h0] at d2; have := hb.2.2.1; omega
      · exact h0
    have hR : 0 < G * (a.root / G) * (b.root / G) := Nat.mul_pos (Nat.mul_pos hG hr1) hr2
    have hQ : 0 < a.num ^ (b.root / G) * b.num ^ (a.root / G) :=
      Nat.mul_pos (Nat.pow_pos ha.1) (Nat.pow_pos hb.1)
    have hP : 0 < a.den ^ (b.root / G) * b.den ^ (a.root / G) :=
      Nat.mul_pos (Nat.pow_pos ha.2.1) (Nat.pow_pos hb.2.1)
    obtain ⟨r, e1, e2, e3⟩ := C34_root (rrMk (a.num ^ (b.root / G) * b.num ^ (a.root / G))
      (a.den ^ (b.root / G) * b.den ^ (a.root / G)) (G * (a.root / G) * (b.root / G))) 1
      (rrMk_valid _ _ _ hQ hP hR) (by omega)
    refine ⟨r, e1, e2, ?_⟩
    rw [e3, rrMk_val _ _ _ hQ]
    simp only [Nat.cast_one, div_one, Real.rpow_one]
    refine val_root_eq _ _ _ a b _ _ ha hb ?_ ?_ hR rfl rfl
    · rw [d1]
    · calc b.root * (a.root / G) = (G * (b.root / G)) * (a.root / G) := by rw [d2]
        _ = _ := by ring

theorem inv_valid (b : RootRatio) (hb : b.Valid) :
    (rrMk b.den b.num b.root).Valid ∧ (rrMk b.den b.num b.root).val = b.val⁻¹ := by
  refine ⟨rrMk_valid _ _ _ hb.2.1 hb.1 hb.2.2.1, ?_⟩
  rw [rrMk_val _ _ _ hb.2.1]
  unfold RootRatio.val
  rw [← inv_div, Real.inv_rpow (by positivity)]

/-- C34: division. -/
theorem C34_divide (a b : RootRatio) (ha : a.Valid) (hb : b.Valid) :
    ∃ r, rrDiv a b = .ok r ∧ r.Valid ∧ r.val = a.val / b.val := by
  obtain ⟨v, e⟩ := inv_valid b hb
  obtain ⟨r, h1, h2, h3⟩ := C34_multiply a _ ha v
  exact ⟨r, h1, h2, by rw [h3, e, div_eq_mul_inv]⟩

/-- C34: powers. -/
theorem C34_power (a : RootRatio) (ha : a.Valid) (n : ℕ) :
    ∃ r, rrPow a n = .ok r ∧ r.Valid ∧ r.val = a.val ^ n := by
  induction n with
  | zero => exact ⟨_, rfl, rrMk_valid 1 1 1 (by omega) (by omega) (by omega), by
      rw [rrMk_val _ _ _ (by omega)]; simp⟩
  | succ n ih =>
    obtain ⟨p, h1, h2, h3⟩ := ih
    obtain ⟨r, g1, g2, g3⟩ := C34_multiply a p ha h2
    refine ⟨r, ?_, g2, by rw [g3, h3, pow_succ']⟩
    rw [rrPow, h1]; exact g1

/-- C34: the common ratio of two scales (used for sums of quantities): both scales are the
`R`-th root of a positive integer times it, `R = R1·R2` (for plain ratios: integer multiples). -/
theorem C34_common (a b : RootRatio) (ha : a.Valid) (hb : b.Valid) :
    ∃ r, rrCommon a b = .ok r ∧ r.Valid ∧
      (∃ m : ℕ, 0 < m ∧ (a.val / r.val) ^ (a.root * b.root) = m) ∧
      (∃ m : ℕ, 0 < m ∧ (b.val / r.val) ^ (a.root * b.root) = m) := by
  unfold rrCommon
  simp only [C69_power_nonneg_partial]
  set q1 := a.num ^ b.root with hq1
  set q2 := b.num ^ a.root with hq2
  set p1 := a.den ^ b.root with hp1
  set p2 := b.den ^ a.root with hp2
  have q1p : 0 < q1 := Nat.pow_pos ha.1
  have q2p : 0 < q2 := Nat.pow_pos hb.1
  have p1p : 0 < p1 := Nat.pow_pos ha.2.1
  have p2p : 0 < p2 := Nat.pow_pos hb.2.1
  have hR : 0 < a.root * b.root := Nat.mul_pos ha.2.2.1 hb.2.2.1
  obtain ⟨d, hd⟩ : ∃ d, q1 = Nat.gcd q1 q2 * d := Nat.gcd_dvd_left q1 q2
  obtain ⟨d', hd'⟩ : ∃ d, q2 = Nat.gcd q1 q2 * d := Nat.gcd_dvd_right q1 q2
  obtain ⟨f, hf⟩ : ∃ d, p1 = Nat.gcd p1 p2 * d := Nat.gcd_dvd_left p1 p2
  obtain ⟨f', hf'⟩ : ∃ d, p2 = Nat.gcd p1 p2 * d := Nat.gcd_dvd_right p1 p2
  have hQ : 0 < Nat.gcd q1 q2 := Nat.gcd_pos_of_pos_left _ q1p
  have hgp : 0 < Nat.gcd p1 p2 := Nat.gcd_pos_of_pos_left _ p1p
  have hP1 : p1 / Nat.gcd p1 p2 = f := Nat.div_eq_of_eq_mul_right hgp hf
  set g := Nat.gcd p1 p2 with hg
  set Q := Nat.gcd q1 q2 with hQd
  have pos_of : ∀ {x y z : ℕ}, 0 < x → x = y * z → 0 < z := by
    intro x y z h1 h2
    rcases Nat.eq_zero_or_pos z with h | h
    · rw [h] at h2; omega
    · exact h
  have hdp := pos_of q1p hd
  have hdp' := pos_of q2p hd'
  have hfp := pos_of p1p hf
  have hfp' := pos_of p2p hf'
  have hP : 0 < f * p2 := Nat.mul_pos hfp p2p
  rw [hP1]
  obtain ⟨r, e1, e2, e3⟩ := C34_root (rrMk Q (f * p2) (a.root * b.root)) 1
    (rrMk_valid _ _ _ hQ hP hR) (by omega)
  rw [rrMk_val _ _ _ hQ] at e3
  simp only [Nat.cast_one, div_one, Real.rpow_one] at e3
  have hpow : ∀ (x : ℝ), 0 ≤ x → (x ^ ((1 : ℝ) / (a.root * b.root : ℕ))) ^ (a.root * b.root) = x := by
    intro x hx
    rw [one_div]; exact Real.rpow_inv_natCast_pow hx (by omega)
  have hrp : r.val ^ (a.root * b.root) = (Q : ℝ) / ((f * p2 : ℕ) : ℝ) := by
    rw [e3]; exact hpow _ (by positivity)
  have hvp : ∀ (c : RootRatio) (k : ℕ), c.Valid →
      c.val ^ (c.root * k) = ((c.num ^ k : ℕ) : ℝ) / ((c.den ^ k : ℕ) : ℝ) := by
    intro c k hc
    unfold RootRatio.val
    rw [pow_mul, one_div, Real.rpow_inv_natCast_pow (by positivity) (by have := hc.2.2.1; omega)]
    push_cast; rw [div_pow]
  have hQr : (Q : ℝ) ≠ 0 := by exact_mod_cast hQ.ne'
  have hfr : (f : ℝ) ≠ 0 := by exact_mod_cast hfp.ne'
  have hfr' : (f' : ℝ) ≠ 0 := by exact_mod_cast hfp'.ne'
  have hgr : (g : ℝ) ≠ 0 := by exact_mod_cast hgp.ne'
  refine ⟨r, e1, e2, ⟨d * f', Nat.mul_pos hdp hfp', ?_⟩, ⟨d' * f, Nat.mul_pos hdp' hfp, ?_⟩⟩
  · rw [div_pow, hrp, hvp a b.root ha, ← hq1, ← hp1, hd, hf, hf']
    push_cast
    field_simp
  · rw [div_pow, hrp, mul_comm a.root, hvp b a.root hb, ← hq2, ← hp2, hd', hf']
    push_cast
    field_simp

/-- C34 (canonical form, partial): with the same root, equal numbers have the same type; in particular
all plain ratios.  Missing: different roots (next theorem). -/
theorem C34_canonical_partial (a b : RootRatio) (ha : a.Valid) (hb : b.Valid) (h : a.root = b.root) :
    a.val = b.val ↔ a = b := by
  refine ⟨fun hv => ?_, fun h => by rw [h]⟩
  unfold RootRatio.val at hv
  rw [← h] at hv
  have h0 : ((a.root : ℕ) : ℝ) ≠ 0 := by exact_mod_cast ha.2.2.1.ne'
  have h1 := (Real.rpow_left_inj (by positivity : (0 : ℝ) ≤ (a.num : ℝ) / a.den)
    (by positivity : (0 : ℝ) ≤ (b.num : ℝ) / b.den) (one_div_ne_zero h0)).mp hv
  have ha2 : (a.den : ℝ) ≠ 0 := by exact_mod_cast ha.2.1.ne'
  have hb2 : (b.den : ℝ) ≠ 0 := by exact_mod_cast hb.2.1.ne'
  rw [div_eq_div_iff ha2 hb2] at h1
  have h2 : a.num * b.den = b.num * a.den := by exact_mod_cast h1
  have hn : a.num ∣ b.num := ha.2.2.2.dvd_of_dvd_mul_right ⟨b.den, by rw [h2]⟩
  have hn' : b.num ∣ a.num := hb.2.2.2.dvd_of_dvd_mul_right ⟨a.den, by rw [h2]⟩
  have hnum := Nat.dvd_antisymm hn hn'
  have hden : a.den = b.den := by
    rw [hnum] at h2
    exact (Nat.eq_of_mul_eq_mul_left hb.1 h2).symm
  cases a; cases b; simp_all

theorem mul_pow_coprime (a b q p R : ℕ) (hab : Nat.Coprime a b) (hqp : Nat.Coprime q p)
    (h : a * p ^ R = q ^ R * b) : a = q ^ R ∧ b = p ^ R := by
  have h1 : a ∣ q ^ R := hab.dvd_of_dvd_mul_right ⟨p ^ R, h.symm⟩
  have h2 : q ^ R ∣ a := (Nat.Coprime.pow R R hqp).dvd_of_dvd_mul_right ⟨b, h⟩
  have h3 := Nat.dvd_antisymm h1 h2
  refine ⟨h3, ?_⟩
  rcases Nat.eq_zero_or_pos a with h0 | h0
  · rw [h0] at hab
    have hb1 : b = 1 := by simpa using hab
    have hq0 : q ^ R = 0 := by rw [← h3]; exact h0
    have hq : q = 0 := by
      by_contra hne
      exact absurd hq0 (pow_ne_zero _ hne)
    rw [hq] at hqp
    have hp1 : p = 1 := by simpa using hqp
    rw [hb1, hp1, one_pow]
  · rw [← h3] at h
    exact (Nat.eq_of_mul_eq_mul_left h0 h).symm

theorem factorsOf_exact (q R : ℕ) (hq : 0 < q) :
    ∃ cur k, factorsOf (q ^ R) = .ok (embF cur k) ∧ isExactRoot (embF cur k) R = true ∧
      facProd cur = q ^ R := by
  obtain ⟨fs, k, h1, h2⟩ := C31_multiplicities (q ^ R) (Nat.pow_pos hq)
  obtain ⟨cur, k', e1, g1, e2⟩ := factorsOf_ok (q ^ R) (Nat.pow_pos hq)
  refine ⟨cur, k', e1, ?_, e2⟩
  unfold isExactRoot embF
  rw [List.all_append, Bool.and_eq_true, List.all_eq_true, List.all_eq_true]
  refine ⟨?_, ?_⟩
  · intro x hx
    rw [List.mem_map] at hx
    obtain ⟨e, he, rfl⟩ := hx
    have hfac : (facProd cur).factorization e.1 = e.2 := by
      rw [factorization_facProd cur g1]
      obtain ⟨l1, l2, rfl⟩ := List.append_of_mem he
      have hpw := List.pairwise_append.mp g1.1
      have hn1 : l1.filter (fun x => x.1 = e.1) = [] := by
        rw [List.filter_eq_nil_iff]
        intro x hx
        have := hpw.2.2 x hx e (by simp)
        simp; omega
      have hn2 : l2.filter (fun x => x.1 = e.1) = [] := by
        rw [List.filter_eq_nil_iff]
        intro x hx
        have := (List.pairwise_cons.mp hpw.2.1).1 x hx
        simp; omega
      simp [List.filter_append, hn1, hn2]
    rw [e2, Nat.factorization_pow] at hfac
    simp only [Finsupp.smul_apply, smul_eq_mul] at hfac
    have : R ∣ e.2 := ⟨q.factorization e.1, hfac.symm⟩
    have h3 := (tmod_eq_zero_iff e.2 R).mpr this
    simpa using h3
  · intro x hx
    rw [List.mem_replicate] at hx
    rw [hx.2]; simp

/-- C34 (canonical form): a root that denotes a rational number `q/p` (in lowest terms) is represented
by the plain ratio `q/p`. -/
theorem C34_root_rational (rr r : RootRatio) (n q p : ℕ) (h : rr.Valid) (hn : 0 < n)
    (hq : 0 < q) (hp : 0 < p) (hqp : Nat.Coprime q p)
    (hr : rrRoot rr n = .ok r) (hv : r.val = (q : ℝ) / p) : r = ⟨q, p, 1⟩ := by
  obtain ⟨r', e1, _, e3⟩ := C34_root rr n h hn
  rw [hr] at e1
  injection e1 with e1
  subst e1
  obtain ⟨h1, h2, h3, h4⟩ := h
  have hR : 0 < rr.root * n := Nat.mul_pos h3 hn
  have hpr : (p : ℝ) ≠ 0 := by exact_mod_cast hp.ne'
  have hdr : (rr.den : ℝ) ≠ 0 := by exact_mod_cast h2.ne'
  have hpow : (rr.num : ℝ) / rr.den = ((q : ℝ) / p) ^ (rr.root * n) := by
    rw [← hv, e3]
    unfold RootRatio.val
    rw [← Real.rpow_mul (by positivity), ← Real.rpow_natCast, ← Real.rpow_mul (by positivity)]
    have a1 : ((rr.root : ℕ) : ℝ) ≠ 0 := by exact_mod_cast h3.ne'
    have a2 : ((n : ℕ) : ℝ) ≠ 0 := by exact_mod_cast hn.ne'
    have : (1 : ℝ) / rr.root * (1 / n) * ((rr.root * n : ℕ) : ℝ) = 1 := by
      push_cast; field_simp
    rw [this, Real.rpow_one]
  rw [div_pow, div_eq_div_iff hdr (pow_ne_zero _ hpr)] at hpow
  have hN : rr.num * p ^ (rr.root * n) = q ^ (rr.root * n) * rr.den := by exact_mod_cast hpow
  obtain ⟨k1, k2⟩ := mul_pow_coprime _ _ _ _ _ h4 hqp hN
  obtain ⟨qf, kq, f1, f2, f3⟩ := factorsOf_exact q (rr.root * n) hq
  obtain ⟨pf, kp, g1, g2, g3⟩ := factorsOf_exact p (rr.root * n) hp
  have hc : ∀ (fs : List (ℕ × ℕ)) (k m : ℕ), isExactRoot (embF fs k) ((rr.root * n : ℕ) : ℤ) = true →
      facProd fs = m ^ (rr.root * n) → (computeRoot (embF fs k) ((rr.root * n : ℕ) : ℤ)).toNat = m := by
    intro fs k m hex hfp
    have := computeRoot_pow fs k _ hex
    rw [hfp] at this
    rw [computeRoot_emb, Int.toNat_natCast]
    exact Nat.pow_left_injective (by omega : rr.root * n ≠ 0) this
  unfold rrRoot at hr
  rw [k1, k2, f1, g1] at hr
  simp only [Res.bind_ok, Res.pure_eq] at hr
  simp only [f2, g2, Bool.and_self, if_true, hc qf kq q f2 f3, hc pf kp p g2 g3] at hr
  injection hr with hr
  rw [← hr]
  unfold rrMk
  rw [hqp.gcd_eq_one, Nat.div_one, Nat.div_one]

/-- C34 (canonical form): a product that denotes a rational number is represented by the plain ratio,
whatever the roots of the factors. -/
theorem C34_multiply_rational (a b r : RootRatio) (q p : ℕ) (ha : a.Valid) (hb : b.Valid)
    (hq : 0 < q) (hp : 0 < p) (hqp : Nat.Coprime q p)
    (hr : rrMul a b = .ok r) (hv : r.val = (q : ℝ) / p) : r = ⟨q, p, 1⟩ := by
  by_cases h1 : a.root = 1 ∧ b.root = 1
  · unfold rrMul at hr
    rw [if_pos h1] at hr
    injection hr with hr
    have hva : r.Valid := by
      rw [← hr]
      exact rrMk_valid _ _ _ (Nat.mul_pos ha.1 hb.1) (Nat.mul_pos ha.2.1 hb.2.1) (by omega)
    have hro : r.root = 1 := by rw [← hr]; rfl
    refine (C34_canonical_partial r ⟨q, p, 1⟩ hva ⟨hq, hp, Nat.one_pos, hqp⟩ hro).mp ?_
    rw [hv]; simp [RootRatio.val]
  · unfold rrMul at hr
    rw [if_neg h1] at hr
    simp only [C69_power_nonneg_partial] at hr
    have hG : 0 < Nat.gcd a.root b.root := Nat.gcd_pos_of_pos_left _ ha.2.2.1
    have x1 : 0 < a.root / Nat.gcd a.root b.root :=
      Nat.div_pos (Nat.le_of_dvd ha.2.2.1 (Nat.gcd_dvd_left _ _)) hG
    have x2 : 0 < b.root / Nat.gcd a.root b.root :=
      Nat.div_pos (Nat.le_of_dvd hb.2.2.1 (Nat.gcd_dvd_right _ _)) hG
    refine C34_root_rational _ r 1 q p (rrMk_valid _ _ _ ?_ ?_ ?_) (by omega) hq hp hqp hr hv
    · exact Nat.mul_pos (Nat.pow_pos ha.1) (Nat.pow_pos hb.1)
    · exact Nat.mul_pos (Nat.pow_pos ha.2.1) (Nat.pow_pos hb.2.1)
    · exact Nat.mul_pos (Nat.mul_pos hG x1) x2

/-- C34: taking the `n`-th root and then the `n`-th power of a plain ratio restores the same type. -/
theorem C34_root_power (a : RootRatio) (ha : a.Valid) (h1 : a.root = 1) (n : ℕ) (hn : 0 < n) :
    ∃ r, rrRoot a n = .ok r ∧ rrPow r n = .ok a := by
  obtain ⟨r, e1, e2, e3⟩ := C34_root a n ha hn
  refine ⟨r, e1, ?_⟩
  obtain ⟨m, rfl⟩ : ∃ m, n = m + 1 := ⟨n - 1, by omega⟩
  obtain ⟨p, g1, g2, g3⟩ := C34_power r e2 m
  obtain ⟨s, k1, k2, k3⟩ := C34_multiply r p e2 g2
  have hs : s.val = (a.num : ℝ) / a.den := by
    rw [k3, g3, ← pow_succ', e3]
    rw [one_div, Real.rpow_inv_natCast_pow (RootRatio.val_pos a ha).le (by omega)]
    unfold RootRatio.val
    rw [h1]; simp
  have := C34_multiply_rational r p s a.num a.den e2 g2 ha.1 ha.2.1 ha.2.2.2 k1 hs
  rw [rrPow, g1]
  show rrMul r p = _
  rw [k1, this, ← h1]

example : ∃ r, rrRoot ⟨2, 3, 1⟩ 4 = .ok r ∧ rrPow r 4 = .ok ⟨2, 3, 1⟩ :=
  C34_root_power _ ⟨by decide, by decide, by decide, by decide⟩ rfl 4 (by omega)

/-- C34 (canonical form) is false of the code: `2^(1/4) · 2^(1/4)` is represented as `4^(1/4)`, a type
different from `2^(1/2)`, although both denote `√2`.  (Dimensions are encoded the same way, so
`sqrt(sqrt(x)) * sqrt(sqrt(x))` and `sqrt(x)` are quantities of different types.) -/
theorem C34_canonical_false :
    rrRoot ⟨2, 1, 1⟩ 4 = .ok ⟨2, 1, 4⟩ ∧ rrMul ⟨2, 1, 4⟩ ⟨2, 1, 4⟩ = .ok ⟨4, 1, 4⟩ ∧
    rrRoot ⟨2, 1, 1⟩ 2 = .ok ⟨2, 1, 2⟩ ∧
    (⟨4, 1, 4⟩ : RootRatio).val = (⟨2, 1, 2⟩ : RootRatio).val ∧
    (⟨4, 1, 4⟩ : RootRatio) ≠ ⟨2, 1, 2⟩ := by
  have f1 : factorsOf 1 = .ok [(0, 0)] := by
    simp [factorsOf, primeFactorsOf, factorLoop, ctLog2]
  have f2 : factorsOf 2 = .ok [(2, 1), (0, 0)] := by
    have : ctLog2 2 = 2 := by rw [ctLog2]; norm_num; rw [ctLog2]; norm_num
    simp only [factorsOf, primeFactorsOf, Nat.cast_ofNat, this]
    decide +kernel
  have f4 : factorsOf 4 = .ok [(2, 2), (0, 0), (0, 0)] := by
    have : ctLog2 4 = 3 := by
      rw [ctLog2]; norm_num; rw [ctLog2]; norm_num; rw [ctLog2]; norm_num
    simp only [factorsOf, primeFactorsOf, Nat.cast_ofNat, this]
    decide +kernel
  refine ⟨?_, ?_, ?_, ?_, by decide⟩
  · simp [rrRoot, f1, f2, isExactRoot, rrMk]
  · simp [rrMul, C69_power, rrRoot, f1, f4, isExactRoot, rrMk]
  · simp [rrRoot, f1, f2, isExactRoot, rrMk]
  · unfold RootRatio.val
    simp only [Nat.cast_ofNat, Nat.cast_one, div_one]
    rw [show (4 : ℝ) = 2 ^ (2 : ℝ) by norm_num, ← Real.rpow_mul (by norm_num)]
    congr 1
    norm_num

end SciCpp
