import Verif.Model.CtRoot
import Verif.Props.Arith
import Mathlib.NumberTheory.LucasPrimality
import Mathlib.Tactic.NormNum.PowMod
import Mathlib.Tactic.NormNum.Prime
/-
  Property theorems C32 (is_prime on 64-bit integers).
-/
namespace SciCpp

theorem i64_ok {v : ℤ} (h : -2 ^ 63 ≤ v ∧ v < 2 ^ 63) : i64 v = .ok v := if_pos h
theorem i64_ub {v : ℤ} (h : 2 ^ 63 ≤ v) : i64 v = .ub := if_neg (by omega)

/-- No trial divisor from `d` on divides `n`, and `n` is large enough that the last one is tried. -/
def Spec.Exhausts (n d : ℤ) : Prop :=
  3037000493 ^ 2 ≤ n ∧ ∀ e, d ≤ e → e ≤ 3037000494 → 6 ∣ e → ¬ (e - 1 ∣ n) ∧ ¬ (e + 1 ∣ n)

open Classical in
/-- The loop with checked arithmetic: undefined exactly when it reaches the divisor 3037000500. -/
theorem loop64_eq (n : ℤ) (b : Bool) : ∀ (fuel : ℕ) (d : ℤ), 6 ∣ d → 6 ≤ d →
    d ≤ 3037000500 → (d = 3037000500 → 3037000493 ^ 2 ≤ n) → isPrimeLoop fuel n d = some b →
    isPrimeLoop64 fuel n d = if Spec.Exhausts n d then .ub else .ok (some b) := by
  intro fuel
  induction fuel with
  | zero => intro d _ _ _ _ h; cases h
  | succ fuel ih =>
    intro d hd h6 hM hfin h
    rw [isPrimeLoop64]
    by_cases hdM : d = 3037000500
    · have hex : Spec.Exhausts n d := ⟨hfin hdM, fun e h1 h2 _ => by omega⟩
      rw [if_pos hex, i64_ub (by rw [hdM]; norm_num)]
      rfl
    · have hd' : d ≤ 3037000494 := by omega
      have hdd : d * d ≤ 3037000494 * 3037000494 := Int.mul_le_mul hd' hd' (by omega) (by norm_num)
      have hdd0 : 0 ≤ d * d := mul_self_nonneg d
      rw [i64_ok (by constructor <;> linarith), Res.bind_ok, i64_ok (by constructor <;> linarith), Res.bind_ok,
        i64_ok (by constructor <;> linarith), Res.bind_ok, i64_ok (by constructor <;> linarith), Res.bind_ok]
      rw [isPrimeLoop] at h
      have et : ∀ k : ℤ, n.tmod k = 0 ↔ k ∣ n := fun k => ⟨Int.dvd_of_tmod_eq_zero, Int.tmod_eq_zero_of_dvd⟩
      simp only [et] at h ⊢
      by_cases h1 : d * d - 2 * d + 1 ≤ n
      · rw [if_pos h1] at h ⊢
        by_cases h2 : d - 1 ∣ n ∨ d + 1 ∣ n
        · rw [if_pos h2] at h ⊢
          injection h with h
          rw [if_neg, ← h]
          · rfl
          · rintro ⟨-, hex⟩
            have := hex d le_rfl hd' hd
            tauto
        · rw [if_neg h2] at h ⊢
          rw [i64_ok (by constructor <;> linarith), Res.bind_ok, ih (d + 6) (by omega) (by omega) (by omega) ?_ h]
          · have : Spec.Exhausts n (d + 6) ↔ Spec.Exhausts n d := by
              constructor
              · rintro ⟨a, hex⟩
                refine ⟨a, fun e e1 e2 e3 => ?_⟩
                by_cases he : e = d
                · rw [he]; tauto
                · exact hex e (by omega) e2 e3
              · rintro ⟨a, hex⟩
                exact ⟨a, fun e e1 e2 e3 => hex e (by omega) e2 e3⟩
            simp only [this]
          · intro he
            have : d = 3037000494 := by omega
            rw [this] at h1
            linarith
      · rw [if_neg h1] at h ⊢
        injection h with h
        rw [if_neg, ← h]
        · rfl
        · rintro ⟨hex, -⟩
          have : (d - 1) * (d - 1) ≤ 3037000493 * 3037000493 :=
            Int.mul_le_mul (by omega) (by omega) (by omega) (by norm_num)
          apply h1
          nlinarith

open Classical in
/-- C32 on 64-bit integers: for every `2 ≤ n < 2^63`, `is_prime(n)` decides primality, except that it
overflows (undefined behaviour) exactly for the `n ≥ 3037000493²` without a prime factor up to 3037000495, in
particular for every prime from there on. -/
theorem C32_is_prime_64_partial (n fuel : ℕ) (hn : 2 ≤ n) (h63 : n < 2 ^ 63) (hf : n ≤ 6 * fuel) :
    isPrime64 (fuel + 1) n =
      if 3037000493 ^ 2 ≤ n ∧ ∀ p : ℕ, p.Prime → p ∣ n → 3037000495 < p then .ub
      else .ok (some (decide n.Prime)) := by
  have h := C32_is_prime_partial n fuel hn hf
  unfold isPrime at h
  unfold isPrime64
  split_ifs at h ⊢ with h1 h2 h3 h4 h5
  · exfalso
    have := h2.1
    have e : (n : ℤ) ≤ 3 := by omega
    have : (3037000493 ^ 2 : ℤ) ≤ n := by exact_mod_cast this
    norm_num at this
    omega
  · rw [Option.some.injEq] at h
    rw [h]
  · exfalso
    have e : ∀ k : ℕ, (n : ℤ).tmod k = 0 → k ∣ n := fun k hk => by
      have := Int.dvd_of_tmod_eq_zero hk
      exact_mod_cast this
    rcases h3 with h3 | h3
    · have := h4.2 2 Nat.prime_two (e 2 h3); omega
    · have := h4.2 3 Nat.prime_three (e 3 h3); omega
  · rw [Option.some.injEq] at h
    rw [h]
  · rw [loop64_eq n _ _ 6 (by norm_num) le_rfl (by norm_num) (by norm_num) h, if_pos]
    refine ⟨by exact_mod_cast h5.1, fun e e1 e2 e3 => ?_⟩
    have key : ∀ k : ℤ, 2 ≤ k → k ≤ 3037000495 → ¬ k ∣ n := by
      intro k k1 k2 hk
      obtain ⟨m, rfl⟩ := Int.eq_ofNat_of_zero_le (by omega : 0 ≤ k)
      have hm : m ∣ n := by exact_mod_cast hk
      have hp := Nat.minFac_prime (n := m) (by omega)
      have := h5.2 _ hp ((Nat.minFac_dvd m).trans hm)
      have := Nat.minFac_le (n := m) (by omega)
      omega
    exact ⟨key _ (by omega) (by omega), key _ (by omega) (by omega)⟩
  · rw [loop64_eq n _ _ 6 (by norm_num) le_rfl (by norm_num) (by norm_num) h, if_neg]
    rintro ⟨a, hex⟩
    apply h5
    refine ⟨by exact_mod_cast a, fun p hp hpn => ?_⟩
    by_contra hc
    push Not at hc
    have e : ∀ k : ℕ, k ∣ n → (n : ℤ).tmod k = 0 := fun k hk =>
      Int.tmod_eq_zero_of_dvd (by exact_mod_cast hk)
    have hp2 : p ≠ 2 := by rintro rfl; exact h3 (Or.inl (e 2 hpn))
    have hp3 : p ≠ 3 := by rintro rfl; exact h3 (Or.inr (e 3 hpn))
    have h2' : ¬ 2 ∣ p := fun hd => by
      rcases (Nat.dvd_prime hp).1 hd with h | h <;> omega
    have h3' : ¬ 3 ∣ p := fun hd => by
      rcases (Nat.dvd_prime hp).1 hd with h | h <;> omega
    have := hp.two_le
    have hpz : (p : ℤ) ∣ n := by exact_mod_cast hpn
    have hm : p % 6 = 1 ∨ p % 6 = 5 := by omega
    rcases hm with hm | hm
    · have := (hex ((p : ℤ) - 1) (by omega) (by omega) (by omega)).2
      rw [sub_add_cancel] at this
      exact this hpz
    · have := (hex ((p : ℤ) + 1) (by omega) (by omega) (by omega)).1
      rw [add_sub_cancel_right] at this
      exact this hpz

/-- `a^k mod p` by repeated squaring, for the certificate of the next theorem. -/
def Spec.powMod (p a : ℕ) : ℕ → ℕ → ℕ
  | 0, _ => 1 % p
  | f + 1, k => if k % 2 = 1 then Spec.powMod p a f (k / 2) ^ 2 % p * a % p else Spec.powMod p a f (k / 2) ^ 2 % p

theorem powMod_eq (p a f k : ℕ) (h : k < 2 ^ f) : Spec.powMod p a f k = a ^ k % p := by
  induction f generalizing k with
  | zero =>
    have : k = 0 := by simpa using h
    subst this; rfl
  | succ f ih =>
    have hk : k / 2 < 2 ^ f := by rw [pow_succ] at h; omega
    have e : (a ^ (k / 2) % p) ^ 2 % p = a ^ (2 * (k / 2)) % p := by
      rw [← Nat.pow_mod, ← pow_mul, mul_comm]
    rw [Spec.powMod, ih _ hk, e]
    split_ifs with h2
    · rw [Nat.mod_mul_mod, ← pow_succ]
      congr 2; omega
    · congr 2; omega

/-- A prime in the range where the check overflows. -/
theorem bigPrime : Nat.Prime 9223372006790004737 := by
  have red : ∀ k c : ℕ, k < 2 ^ 64 → Spec.powMod 9223372006790004737 3 64 k = c → (3 : ZMod 9223372006790004737) ^ k = (c : ℕ) := by
    intro k c hk h
    rw [powMod_eq _ _ _ _ hk] at h
    rw [← h, ZMod.natCast_mod]
    push_cast
    rfl
  refine lucas_primality _ (3 : ZMod 9223372006790004737) ?_ ?_
  · rw [red _ 1 (by norm_num) (by decide +kernel)]; simp
  · intro q hq hd
    have hfac : (9223372006790004737 - 1 : ℕ) = 2 ^ 32 * (2699 * 795659) := by norm_num
    rw [hfac] at hd
    have hne : ∀ c : ℕ, c ≠ 1 → c < 9223372006790004737 → ((c : ℕ) : ZMod 9223372006790004737) ≠ 1 := by
      intro c hc hlt h
      have h1 : ((c : ℕ) : ZMod 9223372006790004737) = ((1 : ℕ) : ZMod 9223372006790004737) := by simpa using h
      rw [ZMod.natCast_eq_natCast_iff'] at h1
      rw [Nat.mod_eq_of_lt hlt, Nat.mod_eq_of_lt (by norm_num)] at h1
      exact hc h1
    have hcases : q = 2 ∨ q = 2699 ∨ q = 795659 := by
      rcases (Nat.Prime.dvd_mul hq).1 hd with h | h
      · exact Or.inl ((Nat.prime_dvd_prime_iff_eq hq Nat.prime_two).1 (hq.dvd_of_dvd_pow h))
      · rcases (Nat.Prime.dvd_mul hq).1 h with h | h
        · exact Or.inr (Or.inl ((Nat.prime_dvd_prime_iff_eq hq (by norm_num)).1 h))
        · exact Or.inr (Or.inr ((Nat.prime_dvd_prime_iff_eq hq (by norm_num)).1 h))
    rcases hcases with rfl | rfl | rfl
    · rw [red _ 9223372006790004736 (by norm_num) (by decide +kernel)]
      exact hne _ (by norm_num) (by norm_num)
    · rw [red _ 2584133568604187187 (by norm_num) (by decide +kernel)]
      exact hne _ (by norm_num) (by norm_num)
    · rw [red _ 2964728907136544638 (by norm_num) (by decide +kernel)]
      exact hne _ (by norm_num) (by norm_num)

/-- C32 is false of the code near `2^63`: `is_prime(9223372006790004737)`, a prime, is undefined
behaviour. -/
theorem C32_overflow_false : Nat.Prime 9223372006790004737 ∧
    isPrime64 (9223372006790004737 + 1) (9223372006790004737 : ℕ) = .ub := by
  refine ⟨bigPrime, ?_⟩
  rw [C32_is_prime_64_partial _ _ (by norm_num) (by norm_num) (by norm_num), if_pos]
  refine ⟨by norm_num, fun p hp hd => ?_⟩
  rw [(Nat.prime_dvd_prime_iff_eq hp bigPrime).1 hd]
  norm_num

/-- Below the bound the hypotheses of the defined case are met. -/
example : isPrime64 100 97 = .ok (some true) ∧ isPrime64 100 91 = .ok (some false) := by decide +kernel

end SciCpp
