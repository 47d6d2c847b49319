import Verif.Proofs.IeeeIdem
import Mathlib.Tactic.Linarith
import Mathlib.Tactic.FieldSimp
import Mathlib.Tactic.Ring
import Mathlib.RingTheory.Coprime.Lemmas
/-
  Newton's iteration for the square root in rounded arithmetic: the number under the root is `X` units squared,
  the numbers around the root are whole units `P = 2^p, …, 2P`.
-/
namespace SciCpp

/-- Rounding to nearest even seen from the binade `[P, 2P]` of unit spacing. -/
structure Rounder (P : ℤ) (R : ℚ → ℚ) : Prop where
  mono : ∀ {a b}, a ≤ b → R a ≤ R b
  idem : ∀ a, R (R a) = R a
  mid : ∀ y : ℚ, P ≤ y → y ≤ 2 * P → R y = nearestEven y
  high : ∀ y : ℚ, 2 * P ≤ y → y ≤ 4 * P → R y = 2 * nearestEven (y / 2)
  err : ∀ y : ℚ, 0 ≤ y → y ≤ 2 * P → |R y - y| ≤ 1 / 2
  low : (P : ℚ) ≤ R (P - 1 / 4)
  rel : ∀ y : ℚ, P ≤ y → |R y - y| ≤ y / (2 * P)
  int : ∀ y : ℚ, P ≤ y → ∃ n : ℤ, R y = n

/-- One step of the iteration. -/
def nstep (R : ℚ → ℚ) (X c : ℚ) : ℚ := R ((c + R (X / c)) / 2)

theorem nearestEven_tie (n : ℤ) : nearestEven ((n : ℚ) + 1 / 2) = if n % 2 = 0 then n else n + 1 := by
  unfold nearestEven
  have : ⌊(n : ℚ) + 1 / 2⌋ = n := by
    rw [Int.floor_eq_iff]; constructor <;> linarith
  simp only [this]
  norm_num

theorem nearestEven_lt {y : ℚ} {n : ℤ} (h : y < n + 1 / 2) : nearestEven y ≤ n := by
  have := (abs_le.1 (nearestEven_err y)).2
  have h2 : (nearestEven y : ℚ) < n + 1 := by linarith
  exact Int.lt_add_one_iff.1 (by exact_mod_cast h2)

theorem lt_nearestEven {y : ℚ} {n : ℤ} (h : (n : ℚ) - 1 / 2 < y) : n ≤ nearestEven y := by
  have := (abs_le.1 (nearestEven_err y)).1
  have h2 : (n : ℚ) - 1 < nearestEven y := by linarith
  have h3 : n - 1 < nearestEven y := by exact_mod_cast h2
  omega

variable {P m X : ℤ} {R : ℚ → ℚ}

theorem Rounder.rep (hR : Rounder P R) {n : ℤ} (h1 : P ≤ n) (h2 : n ≤ 2 * P) : R n = n := by
  rw [hR.mid n (by exact_mod_cast h1) (by exact_mod_cast h2), nearestEven_int]

/-- From above the iteration does not increase. -/
theorem nstep_le (hR : Rounder P R) {X c : ℚ} (hc : R c = c) (h0 : 0 < c) (h : X ≤ c ^ 2) : nstep R X c ≤ c := by
  have h1 : X / c ≤ c := by rw [div_le_iff₀ h0]; nlinarith
  have h2 := hR.mono h1
  rw [hc] at h2
  have h3 := hR.mono (show (c + R (X / c)) / 2 ≤ c by linarith)
  rwa [hc] at h3

/-- The standing assumptions on the number under the root: `m² ≤ X < (m+1)²`, `m` in the binade. -/
structure Bracket (P m X : ℤ) : Prop where
  P4 : 4 ≤ P
  lo : P ≤ m
  hi : m + 1 ≤ 2 * P
  sq : m ^ 2 ≤ X
  sq' : X < (m + 1) ^ 2

theorem le_nstep (hR : Rounder P R) (hb : Bracket P m X) {c : ℚ} (h : (m : ℚ) + 1 ≤ c) : (m : ℚ) ≤ nstep R X c := by
  have hm : (4 : ℚ) ≤ m := by exact_mod_cast hb.P4.trans hb.lo
  have hP : (P : ℚ) ≤ m := by exact_mod_cast hb.lo
  have hM : (m : ℚ) + 1 ≤ 2 * P := by exact_mod_cast hb.hi
  have hs : (m : ℚ) ^ 2 ≤ X := by exact_mod_cast hb.sq
  have hs' : (X : ℚ) < ((m : ℚ) + 1) ^ 2 := by exact_mod_cast hb.sq'
  have hc : 0 < c := by linarith
  have h1 : (X : ℚ) / c ≤ m + 1 := by
    rw [div_le_iff₀ hc]; nlinarith
  have h2 : 2 * (m : ℚ) ≤ c + X / c := by
    have : 2 * (m : ℚ) - c ≤ X / c := by
      rw [le_div_iff₀ hc]; nlinarith [sq_nonneg (c - m)]
    linarith
  have h3 := (abs_le.1 (hR.err (X / c) (div_nonneg (by nlinarith) hc.le) (by linarith))).1
  have h4 : (m : ℚ) - 1 / 4 ≤ (c + R (X / c)) / 2 := by linarith
  refine le_trans ?_ (hR.mono h4)
  rcases eq_or_lt_of_le hb.lo with h5 | h5
  · rw [← h5]; exact hR.low
  · have h6 : (P : ℚ) + 1 ≤ m := by exact_mod_cast h5
    rw [hR.mid _ (by linarith) (by linarith)]
    exact_mod_cast lt_nearestEven (by linarith)

theorem nstep_low (hR : Rounder P R) (hb : Bracket P m X) : nstep R X m = m ∨ nstep R X m = m + 1 := by
  have hm : (4 : ℚ) ≤ m := by exact_mod_cast hb.P4.trans hb.lo
  have hP : (P : ℚ) ≤ m := by exact_mod_cast hb.lo
  have hM : (m : ℚ) + 1 ≤ 2 * P := by exact_mod_cast hb.hi
  have hP4 : (4 : ℚ) ≤ P := by exact_mod_cast hb.P4
  have hs : (m : ℚ) ^ 2 ≤ X := by exact_mod_cast hb.sq
  have hs' : (X : ℚ) < ((m : ℚ) + 1) ^ 2 := by exact_mod_cast hb.sq'
  have h0 : (0 : ℚ) < m := by linarith
  have rm := hR.rep hb.lo (by have := hb.hi; omega)
  have rm1 := hR.rep (n := m + 1) (by have := hb.lo; omega) hb.hi
  have y1 : (m : ℚ) ≤ X / m := by rw [le_div_iff₀ h0]; nlinarith
  have y2 : (X : ℚ) / m < m + 2 + 1 / m := by
    rw [div_lt_iff₀ h0]
    have : ((m : ℚ) + 2 + 1 / m) * m = (m + 1) ^ 2 := by field_simp; ring
    rw [this]; exact hs'
  have y3 : 1 / (m : ℚ) ≤ 1 / 4 := one_div_le_one_div_of_le (by norm_num) hm
  have q1 : (m : ℚ) ≤ R (X / m) := by have := hR.mono y1; rwa [rm] at this
  have l1 : (m : ℚ) ≤ nstep R X m := by
    have := hR.mono (show (m : ℚ) ≤ (m + R (X / m)) / 2 by linarith)
    rwa [rm] at this
  have l2 : nstep R X m ≤ m + 1 := by
    rcases eq_or_lt_of_le hb.hi with h5 | h5
    · -- the next number is the end of the binade
      have h6 : (m : ℚ) + 1 = 2 * P := by exact_mod_cast h5
      have q2 : R (X / m) ≤ 2 * (P + 1 : ℤ) := by
        have h7 : (X : ℚ) / m ≤ ((2 * (P + 1) : ℤ) : ℚ) := by push_cast; linarith
        have h8 := hR.mono h7
        rw [hR.high ((2 * (P + 1) : ℤ) : ℚ) (by push_cast; linarith) (by push_cast; linarith),
          show (((2 * (P + 1) : ℤ)) : ℚ) / 2 = ((P + 1 : ℤ) : ℚ) by push_cast; ring, nearestEven_int] at h8
        exact h8
      push_cast at q2
      have h9 : ((m : ℚ) + R (X / m)) / 2 ≤ 2 * P + 1 / 2 := by linarith
      refine (hR.mono h9).trans ?_
      rw [hR.high _ (by linarith) (by linarith), h6]
      have : nearestEven ((2 * (P : ℚ) + 1 / 2) / 2) ≤ P := nearestEven_lt (by linarith)
      have : (nearestEven ((2 * (P : ℚ) + 1 / 2) / 2) : ℚ) ≤ P := by exact_mod_cast this
      linarith
    · have h6 : (m : ℚ) + 2 ≤ 2 * P := by
        have : m + 2 ≤ 2 * P := by omega
        exact_mod_cast this
      have q2 : R (X / m) ≤ m + 2 := by
        rcases le_or_gt ((X : ℚ) / m) (2 * P) with h7 | h7
        · rw [hR.mid _ (by linarith) h7]
          have : nearestEven ((X : ℚ) / m) ≤ m + 2 := nearestEven_lt (by push_cast; linarith)
          exact_mod_cast this
        · have h8 : (X : ℚ) / m ≤ 2 * P + 1 / 2 := by linarith
          refine (hR.mono h8).trans ?_
          rw [hR.high _ (by linarith) (by linarith)]
          have h9 : nearestEven ((2 * (P : ℚ) + 1 / 2) / 2) ≤ P := nearestEven_lt (by linarith)
          have h9 : (nearestEven ((2 * (P : ℚ) + 1 / 2) / 2) : ℚ) ≤ P := by exact_mod_cast h9
          have h10 : (2 : ℚ) * P ≤ m + 2 := by
            have : (2 * P : ℚ) < m + 3 := by linarith
            have : 2 * P < m + 3 := by exact_mod_cast this
            have : 2 * P ≤ m + 2 := by omega
            exact_mod_cast this
          linarith
      have := hR.mono (show ((m : ℚ) + R (X / m)) / 2 ≤ ((m + 1 : ℤ) : ℚ) by push_cast; linarith)
      rw [rm1] at this
      push_cast at this
      exact this
  obtain ⟨n, hn⟩ := hR.int ((m + R (X / m)) / 2) (by linarith)
  have hn' : nstep R X m = n := hn
  rw [hn'] at l1 l2 ⊢
  have a1 : m ≤ n := by exact_mod_cast l1
  have a2 : n ≤ m + 1 := by exact_mod_cast l2
  rcases (show n = m ∨ n = m + 1 by omega) with rfl | rfl
  · left; rfl
  · right; push_cast; rfl

theorem nstep_exact (hR : Rounder P R) (hb : Bracket P m X) (h : X = m ^ 2) :
    nstep R X m = m ∧ nstep R X (m + 1) = m := by
  have hm : (4 : ℚ) ≤ m := by exact_mod_cast hb.P4.trans hb.lo
  have hP : (P : ℚ) ≤ m := by exact_mod_cast hb.lo
  have hM : (m : ℚ) + 1 ≤ 2 * P := by exact_mod_cast hb.hi
  have h0 : (0 : ℚ) < m := by linarith
  have rm := hR.rep hb.lo (by have := hb.hi; omega)
  constructor
  · unfold nstep
    rw [h]
    have : (((m ^ 2 : ℤ)) : ℚ) / m = m := by push_cast; field_simp
    rw [this, rm, show ((m : ℚ) + m) / 2 = m by ring, rm]
  · refine le_antisymm ?_ (le_nstep hR hb le_rfl)
    have y : (X : ℚ) / (m + 1) ≤ m - 1 + 1 / 4 := by
      rw [div_le_iff₀ (by linarith), h]; push_cast; nlinarith
    have e := (abs_le.1 (hR.err (X / (m + 1)) (by
      rw [h]; push_cast; positivity) (by linarith))).2
    have : ((m : ℚ) + 1 + R (X / (m + 1))) / 2 ≤ m + 3 / 8 := by linarith
    refine (hR.mono this).trans ?_
    rw [hR.mid _ (by linarith) (by linarith)]
    exact_mod_cast nearestEven_lt (by linarith)

/-- No alternation between the two neighbours of the root. -/
theorem nstep_no_cycle (hR : Rounder P R) (hb : Bracket P m X) {p : ℕ} (hp : P = 2 ^ p) (hdvd : P ∣ X)
    (h1 : nstep R X m = m + 1) : nstep R X (m + 1) ≠ m := by
  intro h2
  have hm : (4 : ℚ) ≤ m := by exact_mod_cast hb.P4.trans hb.lo
  have hP : (P : ℚ) ≤ m := by exact_mod_cast hb.lo
  have hM : (m : ℚ) + 1 ≤ 2 * P := by exact_mod_cast hb.hi
  have hs : (m : ℚ) ^ 2 ≤ X := by exact_mod_cast hb.sq
  have hs' : (X : ℚ) < ((m : ℚ) + 1) ^ 2 := by exact_mod_cast hb.sq'
  have h0 : (0 : ℚ) < m := by linarith
  have h01 : (0 : ℚ) < (m : ℚ) + 1 := by linarith
  have rm := hR.rep hb.lo (by have := hb.hi; omega)
  have rm1 := hR.rep (n := m + 1) (by have := hb.lo; omega) hb.hi
  have y1 : (m : ℚ) ≤ X / m := by rw [le_div_iff₀ h0]; nlinarith
  have q1 : (m : ℚ) ≤ R (X / m) := by have := hR.mono y1; rwa [rm] at this
  -- the quotient at `m` is rounded to an integer
  obtain ⟨Q, hQ⟩ := hR.int (X / m) (by linarith)
  -- the quotient at `m + 1` is at most `m + 1`
  have y2 : (X : ℚ) / (m + 1) ≤ ((m + 1 : ℤ) : ℚ) := by
    rw [div_le_iff₀ h01]; push_cast; nlinarith
  have q2 : R (X / (m + 1)) ≤ m + 1 := by
    have := hR.mono y2
    rw [rm1] at this
    push_cast at this; exact this
  -- its average rounds to `m`
  have q3 : R (X / (m + 1)) ≤ m ∧ (R (X / (m + 1)) = m → m % 2 = 0) := by
    have hmono : ∀ z : ℚ, (m : ℚ) + 1 / 2 ≤ z → R ((m : ℚ) + 1 / 2) ≤ R z := fun z hz => hR.mono hz
    have htie : R ((m : ℚ) + 1 / 2) = if m % 2 = 0 then (m : ℚ) else m + 1 := by
      rw [hR.mid _ (by linarith) (by linarith), nearestEven_tie]
      split_ifs <;> push_cast <;> rfl
    have hup : ∀ z : ℚ, (m : ℚ) + 1 / 2 < z → z ≤ m + 1 → R z = m + 1 := by
      intro z hz1 hz2
      rw [hR.mid _ (by linarith) (by linarith)]
      have a1 : m + 1 ≤ nearestEven z := lt_nearestEven (by push_cast; linarith)
      have a2 : nearestEven z ≤ m + 1 := nearestEven_lt (by push_cast; linarith)
      have : nearestEven z = m + 1 := le_antisymm a2 a1
      rw [this]; push_cast; rfl
    constructor
    · by_contra hc
      have hc := not_le.1 hc
      have := hup ((m + 1 + R (X / (m + 1))) / 2) (by linarith) (by linarith)
      unfold nstep at h2
      rw [this] at h2; linarith
    · intro he
      unfold nstep at h2
      rw [he, show ((m : ℚ) + 1 + m) / 2 = m + 1 / 2 by ring, htie] at h2
      by_contra hc
      rw [if_neg hc] at h2; linarith
  -- the average at `m` rounds to `m + 1`
  have hQm : m + 1 ≤ Q ∧ (Q = m + 1 → m % 2 ≠ 0) := by
    unfold nstep at h1
    rw [hQ] at h1 q1
    have hq : m ≤ Q := by exact_mod_cast q1
    constructor
    · by_contra hc
      have : Q = m := by omega
      rw [this, show ((m : ℚ) + m) / 2 = m by ring, rm] at h1
      linarith
    · intro he hev
      rw [he, show ((m : ℚ) + ((m + 1 : ℤ) : ℚ)) / 2 = m + 1 / 2 by push_cast; ring,
        hR.mid _ (by linarith) (by linarith), nearestEven_tie, if_pos hev] at h1
      linarith
  rcases eq_or_lt_of_le hQm.1 with hQ1 | hQ2
  · -- the quotient at `m` is `m + 1`, `m` is odd
    have hodd := hQm.2 hQ1.symm
    have hlt : R (X / (m + 1)) < m := lt_of_le_of_ne q3.1 fun he => hodd (q3.2 he)
    have hPm : P < m := by
      rcases eq_or_lt_of_le hb.lo with h5 | h5
      · exfalso
        have hp0 : p ≠ 0 := by rintro rfl; rw [pow_zero] at hp; have := hb.P4; omega
        obtain ⟨k, rfl⟩ := Nat.exists_eq_succ_of_ne_zero hp0
        rw [← h5, hp, pow_succ] at hodd
        omega
      · exact h5
    have hPm' : (P : ℚ) + 1 ≤ m := by exact_mod_cast hPm
    have u1 : (X : ℚ) / (m + 1) ≤ m - 1 / 2 := by
      by_contra hc
      have hc := not_le.1 hc
      rw [hR.mid _ (by linarith) (by push_cast at y2; linarith)] at hlt
      have : m ≤ nearestEven ((X : ℚ) / (m + 1)) := lt_nearestEven hc
      have : (m : ℚ) ≤ nearestEven ((X : ℚ) / (m + 1)) := by exact_mod_cast this
      linarith
    have u2 : (m : ℚ) + 1 / 2 ≤ X / m := by
      by_contra hc
      have hc := not_le.1 hc
      have h6 : R (X / m) = nearestEven ((X : ℚ) / m) := hR.mid _ (by linarith) (by linarith)
      have h7 : nearestEven ((X : ℚ) / m) ≤ m := nearestEven_lt hc
      rw [hQ] at h6
      have h8 : Q = nearestEven ((X : ℚ) / m) := by exact_mod_cast h6
      omega
    rw [div_le_iff₀ h01] at u1
    rw [le_div_iff₀ h0] at u2
    nlinarith
  · -- the quotient at `m` is at least `m + 2`
    have v1 : (X : ℚ) ≤ (m + 1 / 2) * (m + 1) := by
      rw [← div_le_iff₀ h01]
      by_contra hc
      have hc := not_le.1 hc
      have h6 : R (X / (m + 1)) = nearestEven ((X : ℚ) / (m + 1)) :=
        hR.mid _ (by linarith) (by push_cast at y2; linarith)
      have : m + 1 ≤ nearestEven ((X : ℚ) / (m + 1)) := lt_nearestEven (by push_cast; linarith)
      have : (m : ℚ) + 1 ≤ nearestEven ((X : ℚ) / (m + 1)) := by exact_mod_cast this
      linarith [q3.1]
    have v2 : (m : ℚ) + 3 / 2 ≤ X / m := by
      by_contra hc
      have hc := not_le.1 hc
      rcases le_or_gt ((X : ℚ) / m) (2 * P) with h7 | h7
      · have h6 : R (X / m) = nearestEven ((X : ℚ) / m) := hR.mid _ (by linarith) h7
        have h7 : nearestEven ((X : ℚ) / m) ≤ m + 1 := nearestEven_lt (by push_cast; linarith)
        rw [hQ] at h6
        have h8 : Q = nearestEven ((X : ℚ) / m) := by exact_mod_cast h6
        omega
      · have h6 : R (X / m) = 2 * nearestEven ((X : ℚ) / m / 2) := hR.high _ h7.le (by linarith)
        have h8 : nearestEven ((X : ℚ) / m / 2) ≤ P := nearestEven_lt (by linarith)
        rw [hQ] at h6
        have h9 : Q = 2 * nearestEven ((X : ℚ) / m / 2) := by exact_mod_cast h6
        have h10 : (2 * P : ℚ) < m + 2 := by linarith
        have h11 : 2 * P < m + 2 := by exact_mod_cast h10
        omega
    rw [le_div_iff₀ h0] at v2
    have w1 : 2 * X ≤ (2 * m + 1) * (m + 1) := by
      have : (2 * X : ℚ) ≤ (2 * m + 1) * (m + 1) := by linarith
      exact_mod_cast this
    have w2 : (2 * m + 3) * m ≤ 2 * X := by
      have : ((2 * m + 3) * m : ℚ) ≤ 2 * X := by linarith
      exact_mod_cast this
    have w3 : 2 * X = (2 * m + 3) * m ∨ 2 * X = (2 * m + 1) * (m + 1) := by
      have : (2 * m + 1) * (m + 1) = (2 * m + 3) * m + 1 := by ring
      omega
    rcases w3 with w3 | w3
    · -- `m` would be a multiple of `2P`
      have d1 : 2 * P ∣ (2 * m + 3) * m := by rw [← w3]; exact mul_dvd_mul_left 2 hdvd
      have d2 : IsCoprime (2 * P) (2 * m + 3) := by
        rw [hp, show (2 : ℤ) * 2 ^ p = 2 ^ (p + 1) by ring]
        refine IsCoprime.pow_left ?_
        exact ⟨-(m + 1), 1, by ring⟩
      have d3 : 2 * P ∣ m := d2.dvd_of_dvd_mul_left d1
      have := Int.le_of_dvd (by exact_mod_cast h0) d3
      have := hb.hi
      omega
    · -- the quotient at `m + 1` is exactly between `m` and `m + 1`
      have e1 : (X : ℚ) / (m + 1) = m + 1 / 2 := by
        rw [div_eq_iff h01.ne']
        have : (2 * X : ℚ) = (2 * m + 1) * (m + 1) := by exact_mod_cast w3
        linarith
      have modd : m % 2 ≠ 0 := by
        intro he
        have e3 : (2 * X) % 2 = ((2 * m + 1) * (m + 1)) % 2 := by rw [w3]
        rw [Int.mul_emod_right, Int.mul_emod] at e3
        have a : (2 * m + 1) % 2 = 1 := by omega
        have b : (m + 1) % 2 = 1 := by omega
        rw [a, b] at e3
        norm_num at e3
      have e2 : R (X / (m + 1)) = m + 1 := by
        rw [e1, hR.mid _ (by linarith) (by linarith), nearestEven_tie, if_neg modd]
        push_cast; rfl
      linarith [q3.1]

/-- Further above the root the iteration decreases. -/
theorem nstep_lt (hR : Rounder P R) (hb : Bracket P m X) {c : ℚ} (hc : R c = c) (h : (m : ℚ) + 2 ≤ c) :
    nstep R X c < c := by
  have hm : (4 : ℚ) ≤ m := by exact_mod_cast hb.P4.trans hb.lo
  have hP : (P : ℚ) ≤ m := by exact_mod_cast hb.lo
  have hP4 : (4 : ℚ) ≤ P := by exact_mod_cast hb.P4
  have hM : (m : ℚ) + 1 ≤ 2 * P := by exact_mod_cast hb.hi
  have hs : (m : ℚ) ^ 2 ≤ X := by exact_mod_cast hb.sq
  have hs' : (X : ℚ) < ((m : ℚ) + 1) ^ 2 := by exact_mod_cast hb.sq'
  have h0 : (0 : ℚ) < c := by linarith
  have rm := hR.rep hb.lo (by have := hb.hi; omega)
  have rm1 := hR.rep (n := m + 1) (by have := hb.lo; omega) hb.hi
  have hle := nstep_le hR hc h0 (show (X : ℚ) ≤ c ^ 2 by nlinarith)
  refine lt_of_le_of_ne hle fun heq => ?_
  -- the quotient is at most `m`
  have y : (X : ℚ) / c ≤ m + 1 / 4 := by
    rw [div_le_iff₀ h0]; nlinarith
  have q : R (X / c) ≤ m := by
    refine (hR.mono y).trans ?_
    rw [hR.mid _ (by linarith) (by linarith)]
    exact_mod_cast nearestEven_lt (by linarith)
  set a := (c + R (X / c)) / 2 with ha
  have heq' : R a = c := heq
  have hca : (c - m) / 2 ≤ c - a := by rw [ha]; linarith
  obtain ⟨n, hn⟩ := hR.int c (by linarith)
  rw [hc] at hn
  rcases le_or_gt a (2 * P) with b1 | b1
  · -- unit spacing
    have e := (abs_le.1 (hR.err a (by
      have := le_nstep hR hb (show (m : ℚ) + 1 ≤ c by linarith)
      by_contra hneg
      have hneg := not_le.1 hneg
      have : R a ≤ R (m : ℚ) := hR.mono (by linarith)
      rw [rm, heq'] at this
      linarith) b1)).2
    rw [heq'] at e
    linarith
  · rcases le_or_gt a (4 * P) with b2 | b2
    · -- spacing two
      have e1 := hR.high a b1.le b2
      have e2 := (abs_le.1 (nearestEven_err (a / 2))).2
      rw [heq'] at e1
      have e3 : c - a ≤ 1 := by rw [e1]; linarith
      have e4 : c ≤ m + 2 := by linarith
      have e5 : a ≤ m + 1 := by rw [ha]; linarith
      linarith
    · have e := (abs_le.1 (hR.rel a (by linarith))).2
      rw [heq'] at e
      have hp0 : (0 : ℚ) < 2 * P := by linarith
      have e1 : a / (2 * P) ≤ a / 8 := by
        apply div_le_div_of_nonneg_left (by linarith) (by norm_num) (by linarith)
      linarith

/-- `r` is reached from `c` by the map `F` through numbers satisfying `Ok`, and `r` is the first fixed point. -/
inductive Reach (F : ℚ → ℚ) (Ok : ℚ → Prop) : ℚ → ℚ → Prop
  | done {r : ℚ} : Ok r → F r = r → Reach F Ok r r
  | step {c r : ℚ} : Ok c → F c ≠ c → Reach F Ok (F c) r → Reach F Ok c r

theorem Rounder.int' (hR : Rounder P R) {y : ℚ} (h : (P : ℚ) ≤ R y) : ∃ n : ℤ, R y = n := by
  obtain ⟨n, hn⟩ := hR.int (R y) h
  rw [hR.idem] at hn
  exact ⟨n, hn⟩

/-- The iteration reaches one of the two neighbours of the root, the root itself if it is a number, and stands
still there. -/
theorem nstep_reach (hR : Rounder P R) (hb : Bracket P m X) {p : ℕ} (hp : P = 2 ^ p) (hdvd : P ∣ X) (B : ℚ)
    (k : ℕ) : ∀ c : ℚ, R c = c → (m : ℚ) ≤ c → c ≤ B → c ≤ m + k →
      ∃ r, Reach (nstep R X) (fun c => R c = c ∧ (m : ℚ) ≤ c ∧ (c ≤ B ∨ c = m + 1)) c r ∧ (r = m ∨ r = m + 1) ∧
        (X = m ^ 2 → r = m) := by
  have hP : (P : ℚ) ≤ m := by exact_mod_cast hb.lo
  have hm : (4 : ℚ) ≤ m := by exact_mod_cast hb.P4.trans hb.lo
  have rm := hR.rep hb.lo (by have := hb.hi; omega)
  have rm1 : R ((m : ℚ) + 1) = m + 1 := by
    have := hR.rep (n := m + 1) (by have := hb.lo; omega) hb.hi
    push_cast at this; exact this
  have hs' : (X : ℚ) < ((m : ℚ) + 1) ^ 2 := by exact_mod_cast hb.sq'
  have bot := nstep_low hR hb
  have top : nstep R X (m + 1) = m ∨ nstep R X (m + 1) = m + 1 := by
    have a1 := le_nstep hR hb (c := m + 1) le_rfl
    have a2 := nstep_le hR rm1 (by linarith) hs'.le
    obtain ⟨n, hn⟩ : ∃ n : ℤ, nstep R X (m + 1) = n := hR.int' (by linarith [show (m : ℚ) ≤ R _ from a1])
    rw [hn] at a1 a2 ⊢
    have b1 : m ≤ n := by exact_mod_cast a1
    have b2 : n ≤ m + 1 := by exact_mod_cast a2
    rcases (show n = m ∨ n = m + 1 by omega) with rfl | rfl
    · left; rfl
    · right; push_cast; rfl
  have nocyc := nstep_no_cycle hR hb hp hdvd
  have ne1 : (m : ℚ) + 1 ≠ m := by linarith
  set Ok : ℚ → Prop := fun c => R c = c ∧ (m : ℚ) ≤ c ∧ (c ≤ B ∨ c = m + 1) with hOk
  have low : (m : ℚ) ≤ B → ∃ r, Reach (nstep R X) Ok m r ∧ (r = m ∨ r = m + 1) ∧ (X = m ^ 2 → r = m) := fun hB => by
    have okm : Ok m := ⟨rm, le_rfl, Or.inl hB⟩
    have okm1 : Ok (m + 1) := ⟨rm1, by linarith, Or.inr rfl⟩
    rcases bot with h | h
    · exact ⟨m, .done okm h, Or.inl rfl, fun _ => rfl⟩
    · have t : nstep R X (m + 1) = m + 1 := top.resolve_left (nocyc h)
      refine ⟨m + 1, .step okm (by rw [h]; exact ne1) (by rw [h]; exact .done okm1 t), Or.inr rfl, fun he => ?_⟩
      rw [(nstep_exact hR hb he).2] at t
      exact absurd t ne1.symm
  have mid : (m : ℚ) + 1 ≤ B → ∃ r, Reach (nstep R X) Ok (m + 1) r ∧ (r = m ∨ r = m + 1) ∧ (X = m ^ 2 → r = m) :=
    fun hB => by
    have okm : Ok m := ⟨rm, le_rfl, Or.inl (by linarith)⟩
    have okm1 : Ok (m + 1) := ⟨rm1, by linarith, Or.inr rfl⟩
    rcases top with h | h
    · have t : nstep R X m = m := bot.resolve_right fun hh => nocyc hh h
      exact ⟨m, .step okm1 (by rw [h]; exact ne1.symm) (by rw [h]; exact .done okm t), Or.inl rfl, fun _ => rfl⟩
    · refine ⟨m + 1, .done okm1 h, Or.inr rfl, fun he => ?_⟩
      rw [(nstep_exact hR hb he).2] at h
      exact absurd h ne1.symm
  induction k with
  | zero =>
    intro c hc h1 hB h2
    have : c = m := le_antisymm (by push_cast at h2; linarith) h1
    subst this
    exact low hB
  | succ k ih =>
    intro c hc h1 hB h2
    obtain ⟨n, hn⟩ := hR.int' (y := c) (by rw [hc]; linarith)
    rw [hc] at hn
    have hmn : m ≤ n := by rw [hn] at h1; exact_mod_cast h1
    rcases (show n = m ∨ n = m + 1 ∨ m + 2 ≤ n by omega) with h3 | h3 | h3
    · rw [hn, h3] at hB ⊢; exact low hB
    · rw [hn, h3] at hB ⊢
      push_cast at hB ⊢
      exact mid hB
    · have h4 : (m : ℚ) + 2 ≤ c := by rw [hn]; exact_mod_cast h3
      have lt := nstep_lt hR hb hc h4
      have ge := le_nstep hR hb (show (m : ℚ) + 1 ≤ c by linarith)
      obtain ⟨n', hn'⟩ : ∃ n : ℤ, nstep R X c = n := hR.int' (by linarith [show (m : ℚ) ≤ R _ from ge])
      have lt' : n' < n := by rw [hn', hn] at lt; exact_mod_cast lt
      have le' : nstep R X c ≤ m + k := by
        have : (n' : ℚ) + 1 ≤ n := by exact_mod_cast lt'
        rw [hn']
        rw [hn] at h2
        push_cast at h2
        linarith
      obtain ⟨r, r1, r2, r3⟩ := ih (nstep R X c) (hR.idem _) ge (by linarith) le'
      exact ⟨r, .step ⟨hc, h1, Or.inl hB⟩ lt.ne r1, r2, r3⟩

end SciCpp
