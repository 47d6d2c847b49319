import Verif.Model.CppFloat
import Verif.Proofs.RFl
import Verif.Proofs.Numeric
import Mathlib.Tactic.Positivity
/-
  A calculus of relative rounding errors: `Approx u k e A x` says that the floating point value `x` is
  finite and differs from `e` by at most `((1+u)^k - 1)·A`, where `|e| ≤ A`.
-/
namespace SciCpp

variable {rnd : ℚ → ℚ} {u : ℚ}

/-- `x` is finite and approximates `e` after `k` roundings, `A` bounding the sum of magnitudes. -/
def Approx (u : ℚ) (k : ℕ) (e A : ℚ) (x : RFl rnd) : Prop :=
  ∃ q : ℚ, x = RFl.fin q ∧ |q - e| ≤ ((1 + u) ^ k - 1) * A ∧ |e| ≤ A

theorem one_le_M (hu : 0 ≤ u) (k : ℕ) : (1 : ℚ) ≤ (1 + u) ^ k := one_le_pow₀ (by linarith)

theorem Approx.nonneg {k : ℕ} {e A : ℚ} {x : RFl rnd} (h : Approx u k e A x) : 0 ≤ A := by
  obtain ⟨q, -, -, h⟩ := h
  exact (abs_nonneg _).trans h

theorem Approx.mono (hu : 0 ≤ u) {k k' : ℕ} {e A A' : ℚ} {x : RFl rnd} (h : Approx u k e A x)
    (hk : k ≤ k') (hA : A ≤ A') : Approx u k' e A' x := by
  have h0 := h.nonneg
  obtain ⟨q, hx, hq, he⟩ := h
  refine ⟨q, hx, hq.trans ?_, he.trans hA⟩
  have h1 := pow_le_pow_right₀ (show (1 : ℚ) ≤ 1 + u by linarith) hk
  have h2 := one_le_M hu k'
  have h3 := one_le_M hu k
  calc ((1 + u) ^ k - 1) * A ≤ ((1 + u) ^ k' - 1) * A := mul_le_mul_of_nonneg_right (by linarith) h0
    _ ≤ _ := mul_le_mul_of_nonneg_left hA (by linarith)

theorem Approx.exact (hu : 0 ≤ u) (k : ℕ) (q A : ℚ) (hA : |q| ≤ A) :
    Approx u k q A (RFl.fin q : RFl rnd) := by
  refine ⟨q, rfl, ?_, hA⟩
  have := one_le_M hu k
  rw [sub_self, abs_zero]
  exact mul_nonneg (by linarith) ((abs_nonneg _).trans hA)

theorem Approx.round (hu : 0 ≤ u) (hr : ∀ x, |rnd x - x| ≤ u * |x|) {k : ℕ} {e A q : ℚ}
    (h : |q - e| ≤ ((1 + u) ^ k - 1) * A) (he : |e| ≤ A) :
    Approx u (k + 1) e A (RFl.fin (rnd q) : RFl rnd) := by
  refine ⟨rnd q, rfl, ?_, he⟩
  have h1 : |q| ≤ (1 + u) ^ k * A := by
    have : q = (q - e) + e := by ring
    rw [this]; exact (abs_add_le _ _).trans (by linarith)
  have h2 : rnd q - e = (rnd q - q) + (q - e) := by ring
  rw [h2]
  refine (abs_add_le _ _).trans ?_
  have h3 := (hr q).trans (mul_le_mul_of_nonneg_left h1 hu)
  rw [pow_succ]
  linarith

theorem Approx.add (hu : 0 ≤ u) (hr : ∀ x, |rnd x - x| ≤ u * |x|) {k : ℕ} {e f A B : ℚ}
    {x y : RFl rnd} (hx : Approx u k e A x) (hy : Approx u k f B y) :
    Approx u (k + 1) (e + f) (A + B) (x + y) := by
  obtain ⟨q, rfl, hq, he⟩ := hx
  obtain ⟨r, rfl, hr', hf⟩ := hy
  rw [RFl.add_fin]
  refine Approx.round hu hr ?_ ((abs_add_le _ _).trans (by linarith))
  have : q + r - (e + f) = (q - e) + (r - f) := by ring
  rw [this]
  exact (abs_add_le _ _).trans (by linarith)

theorem Approx.sub (hu : 0 ≤ u) (hr : ∀ x, |rnd x - x| ≤ u * |x|) {k : ℕ} {e f A B : ℚ}
    {x y : RFl rnd} (hx : Approx u k e A x) (hy : Approx u k f B y) :
    Approx u (k + 1) (e - f) (A + B) (x - y) := by
  obtain ⟨q, rfl, hq, he⟩ := hx
  obtain ⟨r, rfl, hr', hf⟩ := hy
  rw [RFl.sub_fin]
  refine Approx.round hu hr ?_ ((abs_sub _ _).trans (by linarith))
  have : q - r - (e - f) = (q - e) - (r - f) := by ring
  rw [this]
  exact (abs_sub _ _).trans (by linarith)

theorem mul_error (hu : 0 ≤ u) {k l : ℕ} {e f A B q r : ℚ}
    (hq : |q - e| ≤ ((1 + u) ^ k - 1) * A) (he : |e| ≤ A)
    (hr : |r - f| ≤ ((1 + u) ^ l - 1) * B) (hf : |f| ≤ B) :
    |q * r - e * f| ≤ ((1 + u) ^ (k + l) - 1) * (A * B) ∧ |e * f| ≤ A * B := by
  have hA : 0 ≤ A := (abs_nonneg _).trans he
  have hB : 0 ≤ B := (abs_nonneg _).trans hf
  have hM := one_le_M hu k
  have hN := one_le_M hu l
  constructor
  · have h1 : |r| ≤ (1 + u) ^ l * B := by
      have : r = (r - f) + f := by ring
      rw [this]; exact (abs_add_le _ _).trans (by linarith)
    have h2 : q * r - e * f = (q - e) * r + e * (r - f) := by ring
    rw [h2]
    refine (abs_add_le _ _).trans ?_
    rw [abs_mul, abs_mul]
    have h3 : |q - e| * |r| ≤ (((1 + u) ^ k - 1) * A) * ((1 + u) ^ l * B) :=
      mul_le_mul hq h1 (abs_nonneg _) (mul_nonneg (by linarith) hA)
    have h4 : |e| * |r - f| ≤ A * (((1 + u) ^ l - 1) * B) :=
      mul_le_mul he hr (abs_nonneg _) hA
    have h5 : ((1 + u) ^ (k + l) - 1) * (A * B)
        = (((1 + u) ^ k - 1) * A) * ((1 + u) ^ l * B) + A * (((1 + u) ^ l - 1) * B) := by
      rw [pow_add]; ring
    linarith
  · rw [abs_mul]; exact mul_le_mul he hf (abs_nonneg _) hA

theorem Approx.mul (hu : 0 ≤ u) (hr : ∀ x, |rnd x - x| ≤ u * |x|) {k l : ℕ} {e f A B : ℚ}
    {x y : RFl rnd} (hx : Approx u k e A x) (hy : Approx u l f B y) :
    Approx u (k + l + 1) (e * f) (A * B) (x * y) := by
  obtain ⟨q, rfl, hq, he⟩ := hx
  obtain ⟨r, rfl, hr', hf⟩ := hy
  rw [RFl.mul_fin]
  obtain ⟨h1, h2⟩ := mul_error hu hq he hr' hf
  exact Approx.round hu hr h1 h2

theorem Approx.fma (hu : 0 ≤ u) (hr : ∀ x, |rnd x - x| ≤ u * |x|) {k : ℕ} {e f g A B C : ℚ}
    {x y z : RFl rnd} (hx : Approx u k e A x) (hy : Approx u 0 f B y) (hz : Approx u k g C z) :
    Approx u (k + 1) (e * f + g) (A * B + C) (RFl.fma x y z) := by
  obtain ⟨q, rfl, hq, he⟩ := hx
  obtain ⟨r, rfl, hr', hf⟩ := hy
  obtain ⟨s, rfl, hs, hg⟩ := hz
  have hfma : RFl.fma (RFl.fin q : RFl rnd) (RFl.fin r) (RFl.fin s) = RFl.fin (rnd (q * r + s)) := rfl
  rw [hfma]
  obtain ⟨h1, h2⟩ := mul_error hu hq he hr' hf
  rw [Nat.add_zero] at h1
  refine Approx.round hu hr ?_ ((abs_add_le _ _).trans (by linarith))
  have : q * r + s - (e * f + g) = (q * r - e * f) + (s - g) := by ring
  rw [this]
  exact (abs_add_le _ _).trans (by linarith)

/-- Division by an exactly represented positive number. -/
theorem Approx.div (hu : 0 ≤ u) (hr : ∀ x, |rnd x - x| ≤ u * |x|) {k : ℕ} {e A c : ℚ} (hc : 0 < c)
    {x : RFl rnd} (hx : Approx u k e A x) :
    Approx u (k + 1) (e / c) (A / c) (x / (RFl.fin c : RFl rnd)) := by
  obtain ⟨q, rfl, hq, he⟩ := hx
  rw [RFl.div_fin hc.ne']
  refine Approx.round hu hr ?_ ?_
  · rw [← sub_div, abs_div, abs_of_pos hc, ← mul_div_assoc]
    exact div_le_div_of_nonneg_right hq hc.le
  · rw [abs_div, abs_of_pos hc]; exact div_le_div_of_nonneg_right he hc.le

/-- A left fold of additions. -/
theorem Approx.foldl_add (hu : 0 ≤ u) (hr : ∀ x, |rnd x - x| ≤ u * |x|) {ι : Type*} (l : List ι)
    (v : ι → RFl rnd) (e A : ι → ℚ) (k : ℕ) (h : ∀ i ∈ l, Approx u k (e i) (A i) (v i))
    (a : RFl rnd) (e0 A0 : ℚ) (ha : Approx u k e0 A0 a) :
    Approx u (k + l.length) (e0 + (l.map e).sum) (A0 + (l.map A).sum)
      (l.foldl (fun acc i => acc + v i) a) := by
  induction l generalizing a e0 A0 k with
  | nil => simpa using ha
  | cons i l ih =>
    have h1 := Approx.add hu hr ha (h i (by simp))
    have h2 := ih (k + 1) (fun j hj => (h j (List.mem_cons_of_mem _ hj)).mono hu (by omega) le_rfl) _ _ _ h1
    simp only [List.foldl_cons, List.map_cons, List.sum_cons, List.length_cons]
    rw [← add_assoc e0, ← add_assoc A0, show k + (l.length + 1) = k + 1 + l.length by omega]
    exact h2

end SciCpp
