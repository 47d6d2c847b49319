import Verif.Model.Arith
import Verif.Props.Cov
import Mathlib.Data.Nat.Prime.Basic
import Mathlib.Data.Nat.Log
import Mathlib.Algebra.BigOperators.Group.List.Basic
/-
  Correctness of the compile-time factorisation and primality loops.
-/
namespace SciCpp

theorem ctLog2_nat (n : ℕ) : ctLog2 (n : ℤ) = (Nat.log 2 n + 1 : ℕ) := by
  induction n using Nat.strong_induction_on with
  | _ n ih =>
    unfold ctLog2
    split_ifs with h
    · rw [Nat.log_of_lt (by omega)]; rfl
    · rw [show ((n : ℤ) / 2) = ((n / 2 : ℕ) : ℤ) by omega, ih (n / 2) (by omega),
        Nat.log_of_one_lt_of_le (b := 2) (n := n) (by omega) (by omega)]
      push_cast; ring

/-- The integer array holding the factors `cur`, padded with zeros. -/
def embF (cur : List (ℕ × ℕ)) (k : ℕ) : Factors :=
  (cur.map fun e => ((e.1 : ℤ), (e.2 : ℤ))) ++ List.replicate k (0, 0)

theorem appendFactor_at (prime : ℤ) (pre2 : Factors) : ∀ (pre1 : Factors) (e : ℤ × ℤ) (post : Factors),
    (∀ x ∈ pre2, x.1 ≠ 0 ∧ x.1 ≠ prime) →
    (e.1 = 0 → appendFactor (pre1 ++ pre2 ++ e :: post) prime (pre2.length + 1 + post.length) pre1.length
      = .ok (pre1 ++ pre2 ++ (prime, 1) :: post)) ∧
    (e.1 ≠ 0 → e.1 = prime →
      appendFactor (pre1 ++ pre2 ++ e :: post) prime (pre2.length + 1 + post.length) pre1.length
      = .ok (pre1 ++ pre2 ++ (e.1, e.2 + 1) :: post)) := by
  induction pre2 with
  | nil =>
    intro pre1 e post _
    have hlt : pre1.length < (pre1 ++ [] ++ e :: post).length := by simp
    have hget : (pre1 ++ [] ++ e :: post)[pre1.length] = e := by simp
    have hset : ∀ v, (pre1 ++ [] ++ e :: post).set pre1.length v = pre1 ++ [] ++ v :: post := by
      intro v; simp
    rw [show ([] : Factors).length + 1 + post.length = post.length + 1 by simp; ring, appendFactor,
      rd_nat _ _ hlt, hget]
    simp only [Res.bind_ok]
    refine ⟨fun h => ?_, fun h1 h2 => ?_⟩
    · rw [if_pos h, wr_nat _ _ _ hlt, hset]
    · rw [if_neg h1, if_pos h2, wr_nat _ _ _ hlt, hset]
  | cons x xs ih =>
    intro pre1 e post hx
    obtain ⟨i1, i2⟩ := ih (pre1 ++ [x]) e post (fun y hy => hx y (by simp [hy]))
    have hl : (pre1 ++ [x]).length = pre1.length + 1 := by simp
    have happ : pre1 ++ [x] ++ xs ++ e :: post = pre1 ++ x :: xs ++ e :: post := by simp
    have happ' : ∀ v : ℤ × ℤ, pre1 ++ [x] ++ xs ++ v :: post = pre1 ++ x :: xs ++ v :: post := by simp
    rw [hl] at i1 i2
    simp only [happ'] at i1 i2
    have hlt : pre1.length < (pre1 ++ x :: xs ++ e :: post).length := by simp
    have hget : (pre1 ++ x :: xs ++ e :: post)[pre1.length] = x := by simp
    have hstep : appendFactor (pre1 ++ x :: xs ++ e :: post) prime ((x :: xs).length + 1 + post.length)
        pre1.length = appendFactor (pre1 ++ x :: xs ++ e :: post) prime (xs.length + 1 + post.length)
          (pre1.length + 1) := by
      rw [show (x :: xs).length + 1 + post.length = (xs.length + 1 + post.length) + 1 by
        simp; ring, appendFactor, rd_nat _ _ hlt, hget]
      simp only [Res.bind_ok]
      rw [if_neg (hx x (by simp)).1, if_neg (hx x (by simp)).2]
    rw [hstep]
    exact ⟨i1, i2⟩

theorem appendFactor_new (cur : List (ℕ × ℕ)) (k q : ℕ) (h0 : ∀ e ∈ cur, e.1 ≠ 0 ∧ e.1 ≠ q) :
    appendFactor (embF cur (k + 1)) q (embF cur (k + 1)).length 0 = .ok (embF (cur ++ [(q, 1)]) k) := by
  have := (appendFactor_at (q : ℤ) (cur.map fun e => ((e.1 : ℤ), (e.2 : ℤ))) [] (0, 0)
    (List.replicate k (0, 0)) (by
      intro x hx
      obtain ⟨e, he, rfl⟩ := List.mem_map.mp hx
      have := h0 e he
      simpa using this)).1 rfl
  simp only [List.nil_append, List.length_nil] at this
  unfold embF
  rw [List.replicate_succ]
  rw [show ((cur.map fun e => ((e.1 : ℤ), (e.2 : ℤ))) ++ ((0, 0) : ℤ × ℤ) :: List.replicate k (0, 0)).length
    = (cur.map fun e => ((e.1 : ℤ), (e.2 : ℤ))).length + 1
      + (List.replicate k ((0, 0) : ℤ × ℤ)).length by simp; ring, this]
  simp

theorem appendFactor_old (cur : List (ℕ × ℕ)) (k q c : ℕ) (hq : q ≠ 0)
    (h0 : ∀ e ∈ cur, e.1 ≠ 0 ∧ e.1 ≠ q) :
    appendFactor (embF (cur ++ [(q, c)]) k) q (embF (cur ++ [(q, c)]) k).length 0
      = .ok (embF (cur ++ [(q, c + 1)]) k) := by
  have := (appendFactor_at (q : ℤ) (cur.map fun e => ((e.1 : ℤ), (e.2 : ℤ))) [] ((q : ℤ), (c : ℤ))
    (List.replicate k (0, 0)) (by
      intro x hx
      obtain ⟨e, he, rfl⟩ := List.mem_map.mp hx
      have := h0 e he
      simpa using this)).2 (by simpa using hq) rfl
  simp only [List.nil_append, List.length_nil] at this
  unfold embF
  simp only [List.map_append, List.map_cons, List.map_nil, List.append_assoc, List.cons_append,
    List.nil_append]
  rw [show ((cur.map fun e => ((e.1 : ℤ), (e.2 : ℤ))) ++ ((q : ℤ), (c : ℤ)) :: List.replicate k (0, 0)).length
    = (cur.map fun e => ((e.1 : ℤ), (e.2 : ℤ))).length + 1
      + (List.replicate k ((0, 0) : ℤ × ℤ)).length by simp; ring, this]
  simp

/-- Product of the factors. -/
def facProd (cur : List (ℕ × ℕ)) : ℕ := (cur.map fun e => e.1 ^ e.2).prod

/-- The list is a list of increasing primes with positive exponents. -/
def GoodF (cur : List (ℕ × ℕ)) : Prop :=
  cur.Pairwise (fun a b => a.1 < b.1) ∧ ∀ e ∈ cur, e.1.Prime ∧ 0 < e.2

theorem two_pow_le_facProd (cur : List (ℕ × ℕ)) (h : ∀ e ∈ cur, e.1.Prime ∧ 0 < e.2) :
    2 ^ cur.length ≤ facProd cur := by
  induction cur with
  | nil => simp [facProd]
  | cons e l ih =>
    obtain ⟨hp, hk⟩ := h e (by simp)
    have h1 := ih (fun e he => h e (by simp [he]))
    have h2 : 2 ≤ e.1 ^ e.2 := le_trans hp.two_le (Nat.le_self_pow (by omega) _)
    simp only [facProd, List.map_cons, List.prod_cons, List.length_cons] at h1 ⊢
    rw [pow_succ, mul_comm]
    exact Nat.mul_le_mul h2 h1

/-- Appending a prime that is at least every stored prime. -/
theorem append_good (cur : List (ℕ × ℕ)) (k q : ℕ) (hg : GoodF cur) (hq : q.Prime)
    (hle : ∀ e ∈ cur, e.1 ≤ q) (hcap : 2 ^ (cur.length + 1) ≤ facProd cur * q → 0 < k) :
    ∃ cur' k', appendFactor (embF cur k) q (embF cur k).length 0 = .ok (embF cur' k') ∧
      GoodF cur' ∧ (∀ e ∈ cur', e.1 ≤ q) ∧ facProd cur' = facProd cur * q ∧
      cur'.length + k' = cur.length + k := by
  by_cases hmem : ∃ e ∈ cur, e.1 = q
  · obtain ⟨e, he, heq⟩ := hmem
    -- it is the last one
    obtain ⟨init, c, hcur⟩ : ∃ init c, cur = init ++ [(q, c)] := by
      have hne : cur ≠ [] := List.ne_nil_of_mem he
      refine ⟨cur.dropLast, (cur.getLast hne).2, ?_⟩
      have hdl := List.dropLast_append_getLast hne
      have hlast : (cur.getLast hne).1 = q := by
        rw [← hdl] at he hg
        rcases List.mem_append.mp he with h1 | h1
        · have := (List.pairwise_append.mp hg.1).2.2 e h1 (cur.getLast hne) (by simp)
          have h2 := hle _ (List.getLast_mem hne)
          omega
        · simp at h1; rw [← h1]; exact heq
      conv_lhs => rw [← hdl]
      rw [← hlast]
    subst hcur
    have hinit : ∀ e ∈ init, e.1 ≠ 0 ∧ e.1 ≠ q := by
      intro e he
      have h1 := (List.pairwise_append.mp hg.1).2.2 e he (q, c) (by simp)
      have h2 := (hg.2 e (by simp [he])).1.two_le
      simp only at h1
      omega
    refine ⟨init ++ [(q, c + 1)], k, appendFactor_old init k q c hq.ne_zero hinit, ?_, ?_, ?_, by simp⟩
    · refine ⟨?_, ?_⟩
      · have := hg.1
        rw [List.pairwise_append] at this ⊢
        refine ⟨this.1, by simp, ?_⟩
        intro a ha b hb
        simp at hb
        have := this.2.2 a ha (q, c) (by simp)
        rw [hb]; exact this
      · intro e he
        rcases List.mem_append.mp he with h1 | h1
        · exact hg.2 e (by simp [h1])
        · simp at h1; rw [h1]; exact ⟨hq, by simp⟩
    · intro e he
      rcases List.mem_append.mp he with h1 | h1
      · exact hle e (by simp [h1])
      · simp at h1; rw [h1]
    · simp [facProd, pow_succ, mul_assoc]
  · have hall : ∀ e ∈ cur, e.1 ≠ 0 ∧ e.1 ≠ q := by
      intro e he
      exact ⟨(hg.2 e he).1.ne_zero, fun h => hmem ⟨e, he, h⟩⟩
    have hk : 0 < k := by
      apply hcap
      rw [pow_succ]
      exact Nat.mul_le_mul (two_pow_le_facProd cur hg.2) hq.two_le
    obtain ⟨k', rfl⟩ : ∃ k', k = k' + 1 := ⟨k - 1, by omega⟩
    refine ⟨cur ++ [(q, 1)], k', appendFactor_new cur k' q hall, ?_, ?_, by simp [facProd], by simp; ring⟩
    · refine ⟨?_, ?_⟩
      · rw [List.pairwise_append]
        refine ⟨hg.1, by simp, ?_⟩
        intro a ha b hb
        simp at hb
        have h1 := hle a ha
        have h2 := (hall a ha).2
        rw [hb]; simp only; omega
      · intro e he
        rcases List.mem_append.mp he with h1 | h1
        · exact hg.2 e h1
        · simp at h1; rw [h1]; exact ⟨hq, by simp⟩
    · intro e he
      rcases List.mem_append.mp he with h1 | h1
      · exact hle e h1
      · simp at h1; rw [h1]

theorem factorLoop_ok (n : ℕ) : ∀ (fuel z num k : ℕ) (cur : List (ℕ × ℕ)),
    2 ≤ z → 1 ≤ num → (∀ p, p.Prime → p ∣ num → z ≤ p) → n = facProd cur * num → GoodF cur →
    (∀ e ∈ cur, e.1 ≤ z) → cur.length + k = Nat.log 2 n + 1 → 2 * num + 1 ≤ fuel + z →
    1 ≤ fuel →
    ∃ cur' k', factorLoop fuel z num (embF cur k) = .ok (some (embF cur' k')) ∧ GoodF cur' ∧
      facProd cur' = n := by
  have hcap : ∀ (cur : List (ℕ × ℕ)) (k q r : ℕ), cur.length + k = Nat.log 2 n + 1 →
      n = facProd cur * (q * r) → 1 ≤ r → 2 ^ (cur.length + 1) ≤ facProd cur * q → 0 < k := by
    intro cur k q r h1 h2 h3 h4
    have : 2 ^ (cur.length + 1) ≤ n := by
      calc 2 ^ (cur.length + 1) ≤ facProd cur * q := h4
        _ = facProd cur * q * 1 := by ring
        _ ≤ facProd cur * q * r := Nat.mul_le_mul_left _ h3
        _ = n := by rw [h2]; ring
    have := Nat.le_log_of_pow_le (by omega) this
    omega
  intro fuel
  induction fuel with
  | zero => intro z num k cur _ _ _ _ _ _ _ _ hf; omega
  | succ fuel ih =>
    intro z num k cur hz hnum hmin hprod hg hle hlen hfuel _
    rw [factorLoop]
    by_cases hzz : z * z ≤ num
    · rw [if_pos (by exact_mod_cast hzz)]
      by_cases hd : z ∣ num
      · have hzp : z.Prime := by
          have h1 := hmin z.minFac (Nat.minFac_prime (by omega)) (dvd_trans (Nat.minFac_dvd z) hd)
          have h2 := Nat.minFac_le (n := z) (by omega)
          have : z.minFac = z := by omega
          rw [← this]; exact Nat.minFac_prime (by omega)
        obtain ⟨r, hr⟩ := hd
        have hr1 : 1 ≤ r := by
          rcases Nat.eq_zero_or_pos r with h | h
          · rw [h] at hr; omega
          · exact h
        obtain ⟨cur', k', e1, e2, e3, e4, e5⟩ := append_good cur k z hg hzp hle
          (hcap cur k z r hlen (by rw [hprod, hr]) hr1)
        have hmod : (num : ℤ).tmod z = 0 := by
          rw [hr]; push_cast; exact Int.mul_tmod_right _ _
        have hdiv : (num : ℤ).tdiv z = (r : ℤ) := by
          rw [hr]; push_cast
          exact Int.mul_tdiv_cancel_left _ (by omega)
        rw [if_pos hmod, hdiv, e1]
        simp only [Res.bind_ok]
        refine ih z r k' cur' hz hr1 ?_ ?_ e2 e3 (by omega) ?_ ?_
        · intro p hp hpr
          exact hmin p hp (by rw [hr]; exact Dvd.dvd.mul_left hpr z)
        · rw [e4, hprod, hr]; ring
        · have : 2 * r ≤ z * r := Nat.mul_le_mul_right _ hz
          nlinarith
        · have h4 : 2 * 2 ≤ z * z := Nat.mul_le_mul hz hz
          have h5 : z * 2 ≤ z * z := Nat.mul_le_mul_left _ hz
          omega
      · have hmod : ¬ (num : ℤ).tmod z = 0 := by
          intro h
          have := Int.dvd_of_tmod_eq_zero h
          exact hd (by exact_mod_cast this)
        rw [if_neg hmod, show (z : ℤ) + 1 = ((z + 1 : ℕ) : ℤ) by push_cast; ring]
        refine ih (z + 1) num k cur (by omega) hnum ?_ hprod hg ?_ hlen (by omega) ?_
        · intro p hp hpn
          have := hmin p hp hpn
          rcases Nat.lt_or_ge z p with h | h
          · exact h
          · have : p = z := by omega
            exact absurd (this ▸ hpn) hd
        · intro e he; have := hle e he; omega
        · have h5 : z * 2 ≤ z * z := Nat.mul_le_mul_left _ hz
          omega
    · rw [if_neg (by exact_mod_cast hzz)]
      by_cases h1 : 1 < num
      · rw [if_pos (by exact_mod_cast h1)]
        have hp : num.Prime := by
          rw [Nat.prime_def_minFac]
          refine ⟨h1, ?_⟩
          by_contra hc
          have hmf := Nat.minFac_prime (n := num) (by omega)
          have hz1 := hmin _ hmf (Nat.minFac_dvd num)
          have hsq : num.minFac ^ 2 ≤ num :=
            Nat.minFac_sq_le_self (by omega) (fun hpr => hc hpr.minFac_eq)
          have : z * z ≤ num.minFac * num.minFac := Nat.mul_le_mul hz1 hz1
          nlinarith
        have hzn := hmin num hp (dvd_refl _)
        obtain ⟨cur', k', e1, e2, e3, e4, e5⟩ := append_good cur k num hg hp
          (fun e he => le_trans (hle e he) hzn) (hcap cur k num 1 hlen (by rw [hprod]; ring) (le_refl _))
        rw [e1]
        exact ⟨cur', k', rfl, e2, by rw [e4, hprod]⟩
      · rw [if_neg (by exact_mod_cast h1)]
        exact ⟨cur, k, rfl, hg, by rw [hprod, show num = 1 by omega]; ring⟩

theorem primeFactorsOf_ok (n fuel : ℕ) (hn : 1 ≤ n) (hf : 2 * n ≤ fuel) :
    ∃ cur k, primeFactorsOf fuel n = .ok (some (embF cur k)) ∧ GoodF cur ∧ facProd cur = n := by
  unfold primeFactorsOf
  have : List.replicate (ctLog2 (n : ℤ)).toNat ((0, 0) : ℤ × ℤ) = embF [] (Nat.log 2 n + 1) := by
    rw [ctLog2_nat]; rfl
  rw [this]
  exact factorLoop_ok n fuel 2 n _ [] (le_refl _) hn (fun p hp _ => hp.two_le) (by simp [facProd])
    ⟨List.Pairwise.nil, by simp⟩ (by simp) (by simp) (by omega) (by omega)

theorem factorsOf_ok (n : ℕ) (hn : 1 ≤ n) :
    ∃ cur k, factorsOf n = .ok (embF cur k) ∧ GoodF cur ∧ facProd cur = n := by
  obtain ⟨cur, k, h1, h2, h3⟩ := primeFactorsOf_ok n (2 * n + 1) hn (by omega)
  refine ⟨cur, k, ?_, h2, h3⟩
  unfold factorsOf
  rw [h1]; rfl

/-! ### is_prime -/

theorem not_dvd_of_smooth (n : ℕ) (h2 : ¬ 2 ∣ n) (h3 : ¬ 3 ∣ n) (m : ℕ) (h : 2 ∣ m ∨ 3 ∣ m) :
    ¬ m ∣ n := by
  intro hm
  rcases h with h | h
  · exact h2 (dvd_trans h hm)
  · exact h3 (dvd_trans h hm)

theorem tmod_eq_zero_iff (n m : ℕ) : (n : ℤ).tmod (m : ℤ) = 0 ↔ m ∣ n := by
  constructor
  · intro h; have := Int.dvd_of_tmod_eq_zero h; exact_mod_cast this
  · intro h; exact Int.tmod_eq_zero_of_dvd (by exact_mod_cast h)

theorem isPrimeLoop_ok (n : ℕ) (hn : 5 ≤ n) (h2 : ¬ 2 ∣ n) (h3 : ¬ 3 ∣ n) :
    ∀ (fuel d : ℕ), 6 ≤ d → 6 ∣ d → (∀ m, 2 ≤ m → m < d - 1 → ¬ m ∣ n) → n < 6 * fuel + d →
      isPrimeLoop (fuel + 1) n d = some (decide n.Prime) := by
  intro fuel
  induction fuel with
  | zero =>
    intro d hd _ hm hf
    rw [isPrimeLoop, if_neg]
    · have : n.Prime := by
        rw [Nat.prime_def_minFac]
        refine ⟨by omega, ?_⟩
        have h1 := Nat.minFac_le (n := n) (by omega)
        have h2 := (Nat.minFac_prime (n := n) (by omega)).two_le
        by_contra hc
        rcases Nat.lt_or_ge n.minFac (d - 1) with h | h
        · exact hm _ h2 h (Nat.minFac_dvd n)
        · omega
      simp [this]
    · push Not
      have : ((n : ℤ)) < d := by omega
      have h6 : (6 : ℤ) ≤ d := by omega
      nlinarith
  | succ fuel ih =>
    intro d hd h6 hm hf
    rw [isPrimeLoop]
    obtain ⟨j, rfl⟩ := h6
    obtain ⟨e, he⟩ : ∃ e, 6 * j = e + 1 := ⟨6 * j - 1, by omega⟩
    have hsq : ((6 * j : ℕ) : ℤ) * ((6 * j : ℕ) : ℤ) - 2 * ((6 * j : ℕ) : ℤ) + 1 = ((e * e : ℕ) : ℤ) := by
      rw [he]; push_cast; ring
    rw [hsq]
    by_cases hle : e * e ≤ n
    · rw [if_pos (by exact_mod_cast hle)]
      have e1 : ((6 * j : ℕ) : ℤ) - 1 = ((e : ℕ) : ℤ) := by omega
      have e2 : ((6 * j : ℕ) : ℤ) + 1 = ((e + 2 : ℕ) : ℤ) := by omega
      rw [e1, e2]
      simp only [tmod_eq_zero_iff]
      have he5 : 5 ≤ e := by omega
      have hbig : e + 2 < n := by nlinarith
      by_cases hc : e ∣ n ∨ (e + 2) ∣ n
      · rw [if_pos hc]
        have : ¬ n.Prime := by
          intro hp
          rcases hc with hc | hc
          · rcases (Nat.dvd_prime hp).mp hc with h | h <;> omega
          · rcases (Nat.dvd_prime hp).mp hc with h | h <;> omega
        simp [this]
      · rw [if_neg hc, show ((6 * j : ℕ) : ℤ) + 6 = ((6 * j + 6 : ℕ) : ℤ) by push_cast; ring]
        push Not at hc
        refine ih (6 * j + 6) (by omega) ⟨j + 1, by ring⟩ ?_ (by omega)
        intro m hm2 hmd
        rcases Nat.lt_or_ge m (6 * j - 1) with h | h
        · exact hm m hm2 h
        · by_cases h7 : m = e
          · rw [h7]; exact hc.1
          · by_cases h8 : m = e + 2
            · rw [h8]; exact hc.2
            · exact not_dvd_of_smooth n h2 h3 m (by omega)
    · rw [if_neg (by exact_mod_cast hle)]
      have : n.Prime := by
        rw [Nat.prime_def_minFac]
        refine ⟨by omega, ?_⟩
        by_contra hc
        have hmf := Nat.minFac_prime (n := n) (by omega)
        have hsq : n.minFac ^ 2 ≤ n :=
          Nat.minFac_sq_le_self (by omega) (fun hpr => hc hpr.minFac_eq)
        rcases Nat.lt_or_ge n.minFac (6 * j - 1) with h | h
        · exact hm _ hmf.two_le h (Nat.minFac_dvd n)
        · have : e * e ≤ n.minFac * n.minFac := Nat.mul_le_mul (by omega) (by omega)
          nlinarith
      simp [this]

theorem isPrime_ok (n fuel : ℕ) (hn : 2 ≤ n) (hf : n ≤ 6 * fuel) :
    isPrime (fuel + 1) n = some (decide n.Prime) := by
  unfold isPrime
  by_cases h23 : n = 2 ∨ n = 3
  · rw [if_pos (by rcases h23 with h | h <;> simp [h])]
    have : n.Prime := by rcases h23 with rfl | rfl <;> decide
    simp [this]
  · rw [if_neg (by
      intro h
      rcases h with h | h
      · exact h23 (.inl (by exact_mod_cast h))
      · exact h23 (.inr (by exact_mod_cast h)))]
    have e2 : (n : ℤ).tmod 2 = 0 ↔ 2 ∣ n := tmod_eq_zero_iff n 2
    have e3 : (n : ℤ).tmod 3 = 0 ↔ 3 ∣ n := tmod_eq_zero_iff n 3
    simp only [e2, e3]
    by_cases hc : 2 ∣ n ∨ 3 ∣ n
    · rw [if_pos hc]
      have : ¬ n.Prime := by
        intro hp
        rcases hc with hc | hc
        · rcases (Nat.dvd_prime hp).mp hc with h | h <;> omega
        · rcases (Nat.dvd_prime hp).mp hc with h | h <;> omega
      simp [this]
    · rw [if_neg hc]
      push Not at hc
      refine isPrimeLoop_ok n (by omega) hc.1 hc.2 fuel 6 (le_refl _) ⟨1, rfl⟩ ?_ (by omega)
      intro m h1 h2
      have : m = 2 ∨ m = 3 ∨ m = 4 := by omega
      rcases this with rfl | rfl | rfl
      · exact hc.1
      · exact hc.2
      · intro h; exact hc.1 (dvd_trans ⟨2, rfl⟩ h)

theorem nextPrime_ok (q : ℕ) (hq : q.Prime) : ∀ (fuel a : ℕ), 1 ≤ a → a < q →
    (∀ p, p.Prime → a < p → q ≤ p) → q ≤ a + fuel → nextPrime fuel a = some (q : ℤ) := by
  intro fuel
  induction fuel with
  | zero => intro a _ h1 _ h2; omega
  | succ fuel ih =>
    intro a ha haq hmin hf
    rw [nextPrime]
    have e : (a : ℤ) + 1 = ((a + 1 : ℕ) : ℤ) := by push_cast; ring
    rw [e, Int.natAbs_natCast, isPrime_ok (a + 1) (a + 1) (by omega) (by omega)]
    by_cases hp : (a + 1).Prime
    · have : q = a + 1 := by have := hmin _ hp (by omega); omega
      simp only [hp, decide_true]
      rw [this]
    · simp only [hp, decide_false]
      refine ih (a + 1) (by omega) ?_ ?_ (by omega)
      · rcases Nat.lt_or_ge (a + 1) q with h | h
        · exact h
        · exact absurd ((by omega : q = a + 1) ▸ hq) hp
      · intro p hp' hlt; exact hmin p hp' (by omega)

end SciCpp
