import Verif.Proofs.ApproxI
import Verif.Proofs.IeeeIdem
/-
  Computations without rounding: `Exactly f k e M x` says that `x` is exactly the multiple `e` of `2^k`, of magnitude
  at most `M`, as soon as `M` is at most `2^(frac+1)·2^k`.
-/
namespace SciCpp

/-- A multiple of `2^k`. -/
def Mult (k : ℤ) (e : ℚ) : Prop := ∃ n : ℤ, e = (n : ℚ) * (2 : ℚ) ^ k

namespace Mult
variable {k l : ℤ} {a b : ℚ}
theorem zero (k : ℤ) : Mult k 0 := ⟨0, by simp⟩
theorem add (ha : Mult k a) (hb : Mult k b) : Mult k (a + b) := by
  obtain ⟨n, rfl⟩ := ha; obtain ⟨m, rfl⟩ := hb
  exact ⟨n + m, by push_cast; ring⟩
theorem neg (ha : Mult k a) : Mult k (-a) := by
  obtain ⟨n, rfl⟩ := ha
  exact ⟨-n, by push_cast; ring⟩
theorem sub (ha : Mult k a) (hb : Mult k b) : Mult k (a - b) := by
  rw [sub_eq_add_neg]; exact ha.add hb.neg
theorem mul (ha : Mult k a) (hb : Mult l b) : Mult (k + l) (a * b) := by
  obtain ⟨n, rfl⟩ := ha; obtain ⟨m, rfl⟩ := hb
  refine ⟨n * m, ?_⟩
  rw [zpow_add₀ two_ne_zero]; push_cast; ring
theorem int (n : ℤ) : Mult 0 (n : ℚ) := ⟨n, by simp⟩
end Mult

/-- `2^(frac+1)·2^k`: below it all multiples of `2^k` are representable. -/
def Fmt.lim (f : Fmt) (k : ℤ) : ℚ := (2 : ℚ) ^ (f.frac + 1) * (2 : ℚ) ^ k

/-- The multiples of `2^k` below the limit are numbers of the format. -/
structure Fmt.InRange (f : Fmt) (k : ℤ) : Prop where
  low : f.emin - f.frac ≤ k
  high : (f.frac : ℤ) + 1 + k < f.emax

theorem ofQ_mult {f : Fmt} {k : ℤ} (h : f.InRange k) {e : ℚ} (he : Mult k e) (hl : |e| ≤ f.lim k) :
    (IFl.ofQ e : IFl f) = IFl.fin e := by
  obtain ⟨n, rfl⟩ := he
  have hp : (0 : ℚ) < (2 : ℚ) ^ k := by positivity
  unfold Fmt.lim at hl
  rw [abs_mul, abs_of_pos hp] at hl
  have h1 := le_of_mul_le_mul_right hl hp
  have h2 : |n| ≤ 2 ^ (f.frac + 1) := by exact_mod_cast h1
  have h3 := f.rnd_exact n k h.low h2
  unfold IFl.ofQ
  rw [f.ofRat_fin, h3]
  · rfl
  · rw [h3, abs_mul, abs_of_pos hp]
    refine lt_of_le_of_lt hl ?_
    rw [← zpow_natCast, ← zpow_add₀ two_ne_zero]
    exact zpow_lt_zpow_right₀ (by norm_num) (by have := h.high; push_cast; linarith)

/-- See the head of this file. -/
structure Exactly (f : Fmt) (k : ℤ) (e M : ℚ) (x : IFl f) : Prop where
  nonneg : 0 ≤ M
  val : M ≤ f.lim k → x = IFl.fin e ∧ Mult k e ∧ |e| ≤ M

namespace Exactly
variable {f : Fmt} {k : ℤ} {e e' M M' : ℚ} {x y : IFl f}

theorem exact (he : Mult k e) : Exactly f k e |e| (IFl.fin e) := ⟨abs_nonneg _, fun _ => ⟨rfl, he, le_rfl⟩⟩
theorem zero : Exactly f k 0 0 (IFl.fin 0) := ⟨le_rfl, fun _ => ⟨rfl, Mult.zero k, by simp⟩⟩

theorem mono (h : Exactly f k e M x) (hM : M ≤ M') : Exactly f k e M' x :=
  ⟨h.nonneg.trans hM, fun hl => by
    obtain ⟨h1, h2, h3⟩ := h.val (hM.trans hl)
    exact ⟨h1, h2, h3.trans hM⟩⟩

theorem add (hk : f.InRange k) (h : Exactly f k e M x) (h' : Exactly f k e' M' y) :
    Exactly f k (e + e') (M + M') (x + y) := by
  refine ⟨add_nonneg h.nonneg h'.nonneg, fun hl => ?_⟩
  obtain ⟨rfl, h2, h3⟩ := h.val (le_trans (le_add_of_nonneg_right h'.nonneg) hl)
  obtain ⟨rfl, h2', h3'⟩ := h'.val (le_trans (le_add_of_nonneg_left h.nonneg) hl)
  have hb : |e + e'| ≤ M + M' := (abs_add_le _ _).trans (add_le_add h3 h3')
  rw [IFl.add_fin, ofQ_mult hk (h2.add h2') (hb.trans hl)]
  exact ⟨rfl, h2.add h2', hb⟩

theorem sub (hk : f.InRange k) (h : Exactly f k e M x) (h' : Exactly f k e' M' y) :
    Exactly f k (e - e') (M + M') (x - y) := by
  refine ⟨add_nonneg h.nonneg h'.nonneg, fun hl => ?_⟩
  obtain ⟨rfl, h2, h3⟩ := h.val (le_trans (le_add_of_nonneg_right h'.nonneg) hl)
  obtain ⟨rfl, h2', h3'⟩ := h'.val (le_trans (le_add_of_nonneg_left h.nonneg) hl)
  have hb : |e - e'| ≤ M + M' := (abs_sub _ _).trans (add_le_add h3 h3')
  rw [IFl.sub_fin, ofQ_mult hk (h2.sub h2') (hb.trans hl)]
  exact ⟨rfl, h2.sub h2', hb⟩

theorem mul_exact {j : ℤ} {a b : ℚ} (hk : f.InRange (j + k)) (ha : Mult j a) (hb : Mult k b) :
    Exactly f (j + k) (a * b) (|a| * |b|) (IFl.fin a * IFl.fin b) := by
  refine ⟨by positivity, fun hl => ?_⟩
  rw [← abs_mul] at hl ⊢
  rw [IFl.mul_fin, ofQ_mult hk (ha.mul hb) hl]
  exact ⟨rfl, ha.mul hb, le_rfl⟩

/-- One step of Horner's rule at an integer. -/
theorem fma {b : ℤ} {c X : ℚ} (hk : f.InRange k) (h : Exactly f k e M x) (hc : Mult k c) (hX : 1 ≤ X)
    (hb : |(b : ℚ)| ≤ X) :
    Exactly f k (e * b + c) (M * X + |c|) (IFl.fma x (IFl.fin b) (IFl.fin c)) := by
  have hM := h.nonneg
  refine ⟨by positivity, fun hl => ?_⟩
  have hMX : M ≤ M * X := le_mul_of_one_le_right hM hX
  obtain ⟨rfl, h2, h3⟩ := h.val (by linarith [abs_nonneg c])
  have hb' : |e * b + c| ≤ M * X + |c| := by
    refine (abs_add_le _ _).trans (add_le_add_left ?_ _)
    rw [abs_mul]
    exact mul_le_mul h3 hb (abs_nonneg _) hM
  have hm : Mult k (e * b + c) := by
    have := (h2.mul (Mult.int b)).add (by rw [add_zero]; exact hc)
    rwa [add_zero] at this
  rw [IFl.fma_fin, ofQ_mult hk hm (hb'.trans hl)]
  exact ⟨rfl, hm, hb'⟩

theorem foldl_add {ι : Type*} (hk : f.InRange k) (l : List ι) (g : ι → IFl f) (v m : ι → ℚ)
    (h : ∀ i ∈ l, Exactly f k (v i) (m i) (g i)) (acc : IFl f) (hacc : Exactly f k e M acc) :
    Exactly f k (e + (l.map v).sum) (M + (l.map m).sum) (l.foldl (fun a i => a + g i) acc) := by
  induction l generalizing acc e M with
  | nil => simpa using hacc
  | cons i l ih =>
    rw [List.foldl_cons, List.map_cons, List.map_cons, List.sum_cons, List.sum_cons, ← add_assoc, ← add_assoc]
    exact ih (fun j hj => h j (by simp [hj])) _ (add hk hacc (h i (by simp)))

end Exactly
end SciCpp
