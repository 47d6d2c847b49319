import Verif.Model.CppFloat
import Verif.Proofs.RFl
import Mathlib.Tactic.Positivity
import Mathlib.Tactic.FieldSimp
import Mathlib.Tactic.Linarith
/-
  A multiplicative calculus of relative rounding errors: `Rel u k e x` says that the floating point value `x` is finite and is
  `e` times a factor between `(1-u)^k` and `1/(1-u)^k`.
-/
namespace SciCpp

variable {rnd : ℚ → ℚ} {u : ℚ}

/-- `x` is `e` up to `k` relative errors. -/
def Rel (u : ℚ) (k : ℕ) (e : ℚ) (x : RFl rnd) : Prop :=
  ∃ θ : ℚ, x = RFl.fin (e * θ) ∧ (1 - u) ^ k ≤ θ ∧ θ * (1 - u) ^ k ≤ 1

theorem Rel.exact (e : ℚ) : Rel u 0 e (RFl.fin e : RFl rnd) := ⟨1, by rw [mul_one], by simp, by simp⟩

theorem rnd_factor (hu1 : u < 1) (hr : ∀ x, |rnd x - x| ≤ u * |x|) (x : ℚ) :
    ∃ θ, rnd x = x * θ ∧ 1 - u ≤ θ ∧ θ * (1 - u) ≤ 1 := by
  by_cases h : x = 0
  · refine ⟨1, ?_, ?_, ?_⟩
    · have := hr x
      rw [h] at this ⊢
      simp at this ⊢; exact this
    · have := hr 1
      have h0 : 0 ≤ u := by have := (abs_nonneg _).trans this; simpa using this
      linarith
    · have := hr 1
      have h0 : 0 ≤ u := by have := (abs_nonneg _).trans this; simpa using this
      linarith
  · refine ⟨rnd x / x, by field_simp, ?_, ?_⟩
    all_goals
      have h1 := hr x
      have hx : 0 < |x| := abs_pos.2 h
      have h2 : |rnd x / x - 1| ≤ u := by
        rw [show rnd x / x - 1 = (rnd x - x) / x by field_simp, abs_div, div_le_iff₀ hx]; exact h1
      obtain ⟨a, b⟩ := abs_le.1 h2
    · linarith
    · have hu : 0 ≤ u := (abs_nonneg _).trans h2
      nlinarith

theorem Rel.round (hu1 : u < 1) (hr : ∀ x, |rnd x - x| ≤ u * |x|) {k : ℕ} {e θ : ℚ} (h1 : (1 - u) ^ k ≤ θ)
    (h2 : θ * (1 - u) ^ k ≤ 1) : Rel u (k + 1) e (RFl.fin (rnd (e * θ)) : RFl rnd) := by
  obtain ⟨η, e1, e2, e3⟩ := rnd_factor hu1 hr (e * θ)
  have p : 0 < 1 - u := by linarith
  have pk : 0 < (1 - u) ^ k := pow_pos p k
  refine ⟨θ * η, by rw [e1, mul_assoc], ?_, ?_⟩
  · rw [pow_succ]; exact mul_le_mul h1 e2 p.le (pk.le.trans h1)
  · calc θ * η * (1 - u) ^ (k + 1) = (θ * (1 - u) ^ k) * (η * (1 - u)) := by rw [pow_succ]; ring
      _ ≤ 1 * 1 := mul_le_mul h2 e3 (mul_nonneg (p.le.trans e2) p.le) one_pos.le
      _ = 1 := by ring

theorem Rel.mono (hu : 0 ≤ u) (hu1 : u < 1) {k l : ℕ} (h : k ≤ l) {e : ℚ} {x : RFl rnd} (hx : Rel u k e x) : Rel u l e x := by
  obtain ⟨θ, e0, e1, e2⟩ := hx
  have p : 0 < 1 - u := by linarith
  have hp : (1 - u) ^ l ≤ (1 - u) ^ k := pow_le_pow_of_le_one p.le (by linarith) h
  have hθ : 0 < θ := lt_of_lt_of_le (pow_pos p k) e1
  exact ⟨θ, e0, hp.trans e1, (mul_le_mul_of_nonneg_left hp hθ.le).trans e2⟩

theorem Rel.mul (hu1 : u < 1) (hr : ∀ x, |rnd x - x| ≤ u * |x|) {k l : ℕ} {e f : ℚ} {x y : RFl rnd} (hx : Rel u k e x)
    (hy : Rel u l f y) : Rel u (k + l + 1) (e * f) (x * y) := by
  obtain ⟨θ, rfl, e1, e2⟩ := hx
  obtain ⟨η, rfl, f1, f2⟩ := hy
  have p : 0 < 1 - u := by linarith
  have pk : 0 < (1 - u) ^ k := pow_pos p k
  have pl : 0 < (1 - u) ^ l := pow_pos p l
  rw [RFl.mul_fin, show e * θ * (f * η) = e * f * (θ * η) by ring]
  refine Rel.round hu1 hr ?_ ?_
  · rw [pow_add]; exact mul_le_mul e1 f1 pl.le (pk.le.trans e1)
  · calc θ * η * (1 - u) ^ (k + l) = (θ * (1 - u) ^ k) * (η * (1 - u) ^ l) := by rw [pow_add]; ring
      _ ≤ 1 * 1 := mul_le_mul e2 f2 (mul_nonneg (pl.le.trans f1) pl.le) one_pos.le
      _ = 1 := by ring

theorem Rel.div (hu1 : u < 1) (hr : ∀ x, |rnd x - x| ≤ u * |x|) {k l : ℕ} {e f : ℚ} (hf : f ≠ 0) {x y : RFl rnd}
    (hx : Rel u k e x) (hy : Rel u l f y) : Rel u (k + l + 1) (e / f) (x / y) := by
  obtain ⟨θ, rfl, e1, e2⟩ := hx
  obtain ⟨η, rfl, f1, f2⟩ := hy
  have p : 0 < 1 - u := by linarith
  have pk : 0 < (1 - u) ^ k := pow_pos p k
  have pl : 0 < (1 - u) ^ l := pow_pos p l
  have hη : 0 < η := lt_of_lt_of_le pl f1
  rw [RFl.div_fin (mul_ne_zero hf hη.ne'), show e * θ / (f * η) = e / f * (θ / η) by field_simp]
  refine Rel.round hu1 hr ?_ ?_
  · rw [le_div_iff₀ hη, pow_add]
    calc (1 - u) ^ k * (1 - u) ^ l * η = (1 - u) ^ k * (η * (1 - u) ^ l) := by ring
      _ ≤ (1 - u) ^ k * 1 := mul_le_mul_of_nonneg_left f2 pk.le
      _ ≤ θ := by linarith
  · rw [div_mul_eq_mul_div, div_le_one hη, pow_add]
    calc θ * ((1 - u) ^ k * (1 - u) ^ l) = (θ * (1 - u) ^ k) * (1 - u) ^ l := by ring
      _ ≤ 1 * (1 - u) ^ l := mul_le_mul_of_nonneg_right e2 pl.le
      _ ≤ η := by linarith

/-- The relative error after `k` operations. -/
theorem Rel.err (hu1 : u < 1) {k : ℕ} {e : ℚ} {x : RFl rnd} (hx : Rel u k e x) :
    ∃ q, x = RFl.fin q ∧ |q - e| ≤ (1 / (1 - u) ^ k - 1) * |e| := by
  obtain ⟨θ, rfl, e1, e2⟩ := hx
  have p : 0 < 1 - u := by linarith
  have pk : 0 < (1 - u) ^ k := pow_pos p k
  refine ⟨_, rfl, ?_⟩
  rw [show e * θ - e = (θ - 1) * e by ring, abs_mul]
  refine mul_le_mul_of_nonneg_right ?_ (abs_nonneg _)
  have hθ : θ ≤ 1 / (1 - u) ^ k := by rw [le_div_iff₀ pk]; exact e2
  have h3 : 1 / (1 - u) ^ k + (1 - u) ^ k ≥ 2 := by
    have : 1 / (1 - u) ^ k + (1 - u) ^ k - 2 = (1 - (1 - u) ^ k) ^ 2 / (1 - u) ^ k := by field_simp; ring
    have h4 : 0 ≤ (1 - (1 - u) ^ k) ^ 2 / (1 - u) ^ k := by positivity
    linarith
  rw [abs_le]; constructor <;> linarith

end SciCpp
