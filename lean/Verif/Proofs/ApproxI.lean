import Verif.Proofs.Ieee
import Mathlib.Tactic.Linarith
import Mathlib.Tactic.Positivity
import Mathlib.Tactic.Ring
/-
  Forward error analysis in a bounded floating point format: `ApproxI f k e A E x` says that `x`, if finite,
  is within `((1+u)^k - 1)·A + (1+u)^k·E` of the exact value `e`, and that `x` is finite when this bound
  excludes overflow.
-/
namespace SciCpp

attribute [local irreducible] Fmt.ofRat

namespace IFl
variable {f : Fmt}

theorem cases (a : IFl f) : a = nan ∨ (∃ s, a = inf s) ∨ ∃ q, a = fin q := by
  rcases a with _ | s | q
  · exact Or.inl rfl
  · exact Or.inr (Or.inl ⟨s, rfl⟩)
  · exact Or.inr (Or.inr ⟨q, rfl⟩)

theorem fin_inj {a b : ℚ} : (fin a : IFl f) = fin b ↔ a = b := Fl.fin.injEq a b ▸ Iff.rfl
@[simp] theorem fin_ne_nan (a : ℚ) : (fin a : IFl f) ≠ nan := fun h => Fl.noConfusion h
@[simp] theorem fin_ne_inf (a : ℚ) (s : Bool) : (fin a : IFl f) ≠ inf s := fun h => Fl.noConfusion h
@[simp] theorem inf_ne_fin (a : ℚ) (s : Bool) : (inf s : IFl f) ≠ fin a := fun h => Fl.noConfusion h
@[simp] theorem nan_ne_fin (a : ℚ) : (nan : IFl f) ≠ fin a := fun h => Fl.noConfusion h

/-- The rounded value of a rational. -/
def ofQ (q : ℚ) : IFl f := f.ofRat q

theorem add_fin (a b : ℚ) : (fin a + fin b : IFl f) = ofQ (a + b) := rfl
theorem sub_fin (a b : ℚ) : (fin a - fin b : IFl f) = ofQ (a - b) := by
  show f.round (Fl.add (.fin a) (.fin (-b))) = _
  rw [sub_eq_add_neg]; rfl
theorem mul_fin (a b : ℚ) : (fin a * fin b : IFl f) = ofQ (a * b) := rfl
theorem div_fin {a b : ℚ} (h : b ≠ 0) : (fin a / fin b : IFl f) = ofQ (a / b) := by
  show f.round (Fl.div (.fin a) (.fin b)) = _
  simp only [Fl.div, if_neg h]; rfl
theorem fma_fin (a b c : ℚ) : fma (fin a : IFl f) (fin b) (fin c) = ofQ (a * b + c) := rfl
theorem zero_fin : (0 : IFl f) = fin 0 := rfl
theorem one_fin : (1 : IFl f) = fin 1 := rfl
theorem natCast_def (n : ℕ) : ((n : ℕ) : IFl f) = ofQ n := rfl
@[simp] theorem ofInt_def (n : ℤ) : (CppNum.ofInt n : IFl f) = ofQ n := rfl

/-- A finite sum has finite terms. -/
theorem add_eq_fin {x y : IFl f} {q : ℚ} (h : x + y = fin q) :
    ∃ a b, x = fin a ∧ y = fin b ∧ q = f.rnd (a + b) ∧ |f.rnd (a + b)| < (2 : ℚ) ^ f.emax := by
  rcases x with _ | s | a <;> rcases y with _ | t | b
  case fin.fin => exact ⟨a, b, rfl, rfl, f.ofRat_eq_fin h⟩
  case inf.inf => cases s <;> cases t <;> cases h
  all_goals cases h

/-- A finite difference has finite terms. -/
theorem sub_eq_fin {x y : IFl f} {q : ℚ} (h : x - y = fin q) :
    ∃ a b, x = fin a ∧ y = fin b ∧ q = f.rnd (a - b) ∧ |f.rnd (a - b)| < (2 : ℚ) ^ f.emax := by
  rcases x with _ | s | a <;> rcases y with _ | t | b
  case fin.fin =>
    refine ⟨a, b, rfl, rfl, ?_⟩
    have h' : f.ofRat (a + -b) = .fin q := h
    rw [← sub_eq_add_neg] at h'
    exact f.ofRat_eq_fin h'
  case inf.inf => cases s <;> cases t <;> cases h
  all_goals cases h

/-- A finite product has finite factors. -/
theorem mul_eq_fin {x y : IFl f} {q : ℚ} (h : x * y = fin q) :
    ∃ a b, x = fin a ∧ y = fin b ∧ q = f.rnd (a * b) ∧ |f.rnd (a * b)| < (2 : ℚ) ^ f.emax := by
  rcases x with _ | s | a <;> rcases y with _ | t | b
  case fin.fin => exact ⟨a, b, rfl, rfl, f.ofRat_eq_fin h⟩
  case fin.inf =>
    by_cases h0 : a = 0
    · have : f.round (if a = 0 then Fl.nan else .inf (t != decide (a < 0))) = .fin q := h
      rw [if_pos h0] at this; cases this
    · have : f.round (if a = 0 then Fl.nan else .inf (t != decide (a < 0))) = .fin q := h
      rw [if_neg h0] at this; cases this
  case inf.fin =>
    by_cases h0 : b = 0
    · have : f.round (if b = 0 then Fl.nan else .inf (s != decide (b < 0))) = .fin q := h
      rw [if_pos h0] at this; cases this
    · have : f.round (if b = 0 then Fl.nan else .inf (s != decide (b < 0))) = .fin q := h
      rw [if_neg h0] at this; cases this
  all_goals cases h

/-- A finite quotient by a non-zero number has a finite dividend. -/
theorem div_eq_fin {x : IFl f} {q c : ℚ} (hc : c ≠ 0) (h : x / (fin c : IFl f) = fin q) :
    ∃ a, x = fin a ∧ q = f.rnd (a / c) ∧ |f.rnd (a / c)| < (2 : ℚ) ^ f.emax := by
  rcases x with _ | s | a
  case fin =>
    have : f.round (if c = 0 then (if a = 0 then Fl.nan else .inf (decide (a < 0))) else .fin (a / c)) = .fin q := h
    rw [if_neg hc] at this
    exact ⟨a, rfl, f.ofRat_eq_fin this⟩
  all_goals cases h

/-- A finite `fma` has finite operands. -/
theorem fma_eq_fin {x y z : IFl f} {q : ℚ} (h : fma x y z = fin q) :
    ∃ a b c, x = fin a ∧ y = fin b ∧ z = fin c ∧ q = f.rnd (a * b + c) ∧
      |f.rnd (a * b + c)| < (2 : ℚ) ^ f.emax := by
  unfold fma at h
  have key : ∀ w : Fl, f.round (Fl.add w z) = .fin q →
      ∃ a c, w = .fin a ∧ z = fin c ∧ q = f.rnd (a + c) ∧ |f.rnd (a + c)| < (2 : ℚ) ^ f.emax := by
    intro w hw
    exact add_eq_fin (x := w) (y := z) hw
  obtain ⟨m, c, hm, hz, h1, h2⟩ := key _ h
  rcases x with _ | s | a <;> rcases y with _ | t | b
  case fin.fin =>
    cases hm
    exact ⟨a, b, c, rfl, rfl, hz, h1, h2⟩
  case fin.inf =>
    have : (if a = 0 then Fl.nan else .inf (t != decide (a < 0))) = .fin m := hm
    split_ifs at this
  case inf.fin =>
    have : (if b = 0 then Fl.nan else .inf (s != decide (b < 0))) = .fin m := hm
    split_ifs at this
  all_goals cases hm

end IFl

/-- `x` is an approximation of `e`: see the header.  `B` bounds the magnitudes on the way to `x`. -/
structure ApproxI (f : Fmt) (k : ℕ) (e A E B : ℚ) (x : IFl f) : Prop where
  exact_le : |e| ≤ A
  abs_nonneg : 0 ≤ E
  le_B : A + E ≤ B
  err : ∀ q, x = IFl.fin q → f.Grid q ∧ |q - e| ≤ ((1 + f.u) ^ k - 1) * A + (1 + f.u) ^ k * E
  finite : (1 + f.u) ^ k * B < (2 : ℚ) ^ f.emax → ∃ q, x = IFl.fin q

namespace ApproxI
variable {f : Fmt}

theorem one_le_M (k : ℕ) : (1 : ℚ) ≤ (1 + f.u) ^ k :=
  one_le_pow₀ (by have := f.u_nonneg; linarith)

theorem A_nonneg {k : ℕ} {e A E B : ℚ} {x : IFl f} (h : ApproxI f k e A E B x) : 0 ≤ A :=
  (_root_.abs_nonneg _).trans h.exact_le

theorem B_nonneg {k : ℕ} {e A E B : ℚ} {x : IFl f} (h : ApproxI f k e A E B x) : 0 ≤ B :=
  (add_nonneg h.A_nonneg h.abs_nonneg).trans h.le_B

/-- Monotonicity of the condition that excludes overflow. -/
theorem lt_of_lt {k k' : ℕ} {B B' : ℚ} (hB : 0 ≤ B) (hk : k ≤ k') (hBB : B ≤ B')
    (hf : (1 + f.u) ^ k' * B' < (2 : ℚ) ^ f.emax) : (1 + f.u) ^ k * B < (2 : ℚ) ^ f.emax := by
  refine lt_of_le_of_lt (mul_le_mul ?_ hBB hB ?_) hf
  · exact pow_le_pow_right₀ (by have := f.u_nonneg; linarith) hk
  · have := one_le_M (f := f) k'; linarith

theorem mono {k k' : ℕ} {e A A' E E' B B' : ℚ} {x : IFl f} (h : ApproxI f k e A E B x)
    (hk : k ≤ k') (hA : A ≤ A') (hE : E ≤ E') (hB : B ≤ B') (hB' : A' + E' ≤ B') :
    ApproxI f k' e A' E' B' x := by
  have h0 := h.A_nonneg
  have hE0 := h.abs_nonneg
  have h1 := pow_le_pow_right₀ (show (1 : ℚ) ≤ 1 + f.u by have := f.u_nonneg; linarith) hk
  have h2 := one_le_M (f := f) k'
  have h3 := one_le_M (f := f) k
  refine ⟨h.exact_le.trans hA, hE0.trans hE, hB', fun q hq => ⟨(h.err q hq).1, (h.err q hq).2.trans ?_⟩,
    fun hf => h.finite (lt_of_lt h.B_nonneg hk hB hf)⟩
  have a1 : ((1 + f.u) ^ k - 1) * A ≤ ((1 + f.u) ^ k' - 1) * A' :=
    mul_le_mul (by linarith) hA h0 (by linarith)
  have a2 : (1 + f.u) ^ k * E ≤ (1 + f.u) ^ k' * E' := mul_le_mul h1 hE hE0 (by linarith)
  linarith

theorem mono_k {k k' : ℕ} {e A E B : ℚ} {x : IFl f} (h : ApproxI f k e A E B x) (hk : k ≤ k') :
    ApproxI f k' e A E B x := h.mono hk le_rfl le_rfl le_rfl h.le_B

theorem exact (k : ℕ) {q A : ℚ} (hg : f.Grid q) (hA : |q| ≤ A) : ApproxI f k q A 0 A (IFl.fin q) := by
  refine ⟨hA, le_rfl, by simp, fun r hr => ?_, fun _ => ⟨q, rfl⟩⟩
  rw [IFl.fin_inj] at hr; subst hr
  refine ⟨hg, ?_⟩
  have := one_le_M (f := f) k
  rw [sub_self, abs_zero, mul_zero, add_zero]
  exact mul_nonneg (by linarith) ((_root_.abs_nonneg _).trans hA)

/-- What an approximation bounds. -/
theorem abs_le {k : ℕ} {e A E q : ℚ} (he : |e| ≤ A)
    (hq : |q - e| ≤ ((1 + f.u) ^ k - 1) * A + (1 + f.u) ^ k * E) :
    |q| ≤ (1 + f.u) ^ k * (A + E) := by
  have : q = (q - e) + e := by ring
  rw [this]
  refine (abs_add_le _ _).trans ?_
  have : (1 + f.u) ^ k * (A + E) = ((1 + f.u) ^ k - 1) * A + (1 + f.u) ^ k * E + A := by ring
  linarith

/-- One rounding, relative error only (sums of representable numbers). -/
theorem round_grid {k : ℕ} {e A E s : ℚ} (he : |e| ≤ A) (hg : f.Grid s)
    (hs : |s - e| ≤ ((1 + f.u) ^ k - 1) * A + (1 + f.u) ^ k * E) :
    |f.rnd s - e| ≤ ((1 + f.u) ^ (k + 1) - 1) * A + (1 + f.u) ^ (k + 1) * E := by
  have h1 := abs_le he hs
  have h2 : f.rnd s - e = (f.rnd s - s) + (s - e) := by ring
  rw [h2]
  refine (abs_add_le _ _).trans ?_
  have h3 := (f.rnd_err_grid hg).trans (mul_le_mul_of_nonneg_left h1 f.u_nonneg)
  rw [pow_succ]
  linarith

/-- One rounding with a possible underflow. -/
theorem round_any {k : ℕ} {e A E s : ℚ} (he : |e| ≤ A)
    (hs : |s - e| ≤ ((1 + f.u) ^ k - 1) * A + (1 + f.u) ^ k * E) :
    |f.rnd s - e| ≤ ((1 + f.u) ^ (k + 1) - 1) * A + (1 + f.u) ^ (k + 1) * (E + f.eta) := by
  have h1 := abs_le he hs
  have h2 : f.rnd s - e = (f.rnd s - s) + (s - e) := by ring
  rw [h2]
  refine (abs_add_le _ _).trans ?_
  have h3 := mul_le_mul_of_nonneg_left h1 f.u_nonneg
  have h4 := f.rnd_err s
  have h5 : f.eta ≤ (1 + f.u) ^ (k + 1) * f.eta := le_mul_of_one_le_left f.eta_pos.le (one_le_M _)
  rw [pow_succ] at *
  linarith

theorem ofQ_grid {k : ℕ} {e A E B s : ℚ} (he : |e| ≤ A) (hE : 0 ≤ E) (hB : A + E ≤ B) (hg : f.Grid s)
    (hs : |s - e| ≤ ((1 + f.u) ^ k - 1) * A + (1 + f.u) ^ k * E) :
    ApproxI f (k + 1) e A E B (IFl.ofQ s) := by
  have h := round_grid he hg hs
  have hA : 0 ≤ A := (_root_.abs_nonneg _).trans he
  refine ⟨he, hE, hB, fun q hq => ?_, fun hf => ?_⟩
  · obtain ⟨rfl, -⟩ := f.ofRat_eq_fin hq
    exact ⟨f.rnd_grid s, h⟩
  · exact ⟨_, f.ofRat_fin (lt_of_le_of_lt (abs_le he h) (lt_of_lt (add_nonneg hA hE) le_rfl hB hf))⟩

theorem ofQ_any {k : ℕ} {e A E B s : ℚ} (he : |e| ≤ A) (hE : 0 ≤ E) (hB : A + (E + f.eta) ≤ B)
    (hs : |s - e| ≤ ((1 + f.u) ^ k - 1) * A + (1 + f.u) ^ k * E) :
    ApproxI f (k + 1) e A (E + f.eta) B (IFl.ofQ s) := by
  have h := round_any he hs
  have hA : 0 ≤ A := (_root_.abs_nonneg _).trans he
  have hE' : 0 ≤ E + f.eta := add_nonneg hE f.eta_pos.le
  refine ⟨he, hE', hB, fun q hq => ?_, fun hf => ?_⟩
  · obtain ⟨rfl, -⟩ := f.ofRat_eq_fin hq
    exact ⟨f.rnd_grid s, h⟩
  · exact ⟨_, f.ofRat_fin (lt_of_le_of_lt (abs_le he h) (lt_of_lt (add_nonneg hA hE') le_rfl hB hf))⟩

theorem add {k : ℕ} {e g A A' E E' B B' : ℚ} {x y : IFl f} (hx : ApproxI f k e A E B x)
    (hy : ApproxI f k g A' E' B' y) : ApproxI f (k + 1) (e + g) (A + A') (E + E') (B + B') (x + y) := by
  have he : |e + g| ≤ A + A' := (abs_add_le _ _).trans (add_le_add hx.exact_le hy.exact_le)
  have hE : 0 ≤ E + E' := add_nonneg hx.abs_nonneg hy.abs_nonneg
  have hB : A + A' + (E + E') ≤ B + B' := by have := hx.le_B; have := hy.le_B; linarith
  have key : ∀ a b, x = IFl.fin a → y = IFl.fin b →
      ApproxI f (k + 1) (e + g) (A + A') (E + E') (B + B') (x + y) := by
    rintro a b rfl rfl
    obtain ⟨ga, ea⟩ := hx.err a rfl
    obtain ⟨gb, eb⟩ := hy.err b rfl
    rw [IFl.add_fin]
    refine ofQ_grid he hE hB (ga.add gb) ?_
    have : a + b - (e + g) = (a - e) + (b - g) := by ring
    rw [this]
    exact (abs_add_le _ _).trans (by linarith)
  refine ⟨he, hE, hB, fun q hq => ?_, fun hf => ?_⟩
  · obtain ⟨a, b, h1, h2, -⟩ := IFl.add_eq_fin hq
    exact (key a b h1 h2).err q hq
  · obtain ⟨a, h1⟩ := hx.finite (lt_of_lt hx.B_nonneg (Nat.le_succ k) (by have := hy.B_nonneg; linarith) hf)
    obtain ⟨b, h2⟩ := hy.finite (lt_of_lt hy.B_nonneg (Nat.le_succ k) (by have := hx.B_nonneg; linarith) hf)
    exact (key a b h1 h2).finite hf

theorem sub {k : ℕ} {e g A A' E E' B B' : ℚ} {x y : IFl f} (hx : ApproxI f k e A E B x)
    (hy : ApproxI f k g A' E' B' y) : ApproxI f (k + 1) (e - g) (A + A') (E + E') (B + B') (x - y) := by
  have he : |e - g| ≤ A + A' := (abs_sub _ _).trans (add_le_add hx.exact_le hy.exact_le)
  have hE : 0 ≤ E + E' := add_nonneg hx.abs_nonneg hy.abs_nonneg
  have hB : A + A' + (E + E') ≤ B + B' := by have := hx.le_B; have := hy.le_B; linarith
  have key : ∀ a b, x = IFl.fin a → y = IFl.fin b →
      ApproxI f (k + 1) (e - g) (A + A') (E + E') (B + B') (x - y) := by
    rintro a b rfl rfl
    obtain ⟨ga, ea⟩ := hx.err a rfl
    obtain ⟨gb, eb⟩ := hy.err b rfl
    rw [IFl.sub_fin]
    refine ofQ_grid he hE hB (ga.sub gb) ?_
    have : a - b - (e - g) = (a - e) - (b - g) := by ring
    rw [this]
    exact (abs_sub _ _).trans (by linarith)
  refine ⟨he, hE, hB, fun q hq => ?_, fun hf => ?_⟩
  · obtain ⟨a, b, h1, h2, -⟩ := IFl.sub_eq_fin hq
    exact (key a b h1 h2).err q hq
  · obtain ⟨a, h1⟩ := hx.finite (lt_of_lt hx.B_nonneg (Nat.le_succ k) (by have := hy.B_nonneg; linarith) hf)
    obtain ⟨b, h2⟩ := hy.finite (lt_of_lt hy.B_nonneg (Nat.le_succ k) (by have := hx.B_nonneg; linarith) hf)
    exact (key a b h1 h2).finite hf

/-- Product of two data (exact factors). -/
theorem mul_exact (a b : ℚ) :
    ApproxI f 1 (a * b) (|a| * |b|) f.eta (|a| * |b| + f.eta) (IFl.fin a * IFl.fin b : IFl f) := by
  rw [IFl.mul_fin, ← abs_mul]
  have := ofQ_any (f := f) (k := 0) (e := a * b) (A := |a * b|) (E := 0) (B := |a * b| + f.eta)
    (s := a * b) le_rfl le_rfl (by simp) (by simp)
  simpa using this

/-- Division by a representable number that is at least 1. -/
theorem div {k : ℕ} {e A E B c : ℚ} (hc : 1 ≤ c) {x : IFl f} (hx : ApproxI f k e A E B x) :
    ApproxI f (k + 1) (e / c) (A / c) (E / c + f.eta) (B + f.eta) (x / (IFl.fin c : IFl f)) := by
  have hc0 : 0 < c := by linarith
  have he : |e / c| ≤ A / c := by
    rw [abs_div, abs_of_pos hc0]; exact div_le_div_of_nonneg_right hx.exact_le hc0.le
  have hE : 0 ≤ E / c := div_nonneg hx.abs_nonneg hc0.le
  have hB : A / c + (E / c + f.eta) ≤ B + f.eta := by
    have h1 : (A + E) / c ≤ A + E := div_le_self (add_nonneg hx.A_nonneg hx.abs_nonneg) hc
    have := hx.le_B
    rw [add_div] at h1
    linarith
  have key : ∀ a, x = IFl.fin a →
      (|a / c - e / c| ≤ ((1 + f.u) ^ k - 1) * (A / c) + (1 + f.u) ^ k * (E / c)) := by
    rintro a rfl
    obtain ⟨ga, ea⟩ := hx.err a rfl
    rw [← sub_div, abs_div, abs_of_pos hc0, ← mul_div_assoc, ← mul_div_assoc, ← add_div]
    exact div_le_div_of_nonneg_right ea hc0.le
  refine ⟨he, add_nonneg hE f.eta_pos.le, hB, fun q hq => ?_, fun hf => ?_⟩
  · obtain ⟨a, rfl, h1, h2⟩ := IFl.div_eq_fin hc0.ne' hq
    rw [IFl.div_fin hc0.ne'] at hq
    exact (ofQ_any he hE hB (key a rfl)).err q hq
  · obtain ⟨a, rfl⟩ := hx.finite (lt_of_lt hx.B_nonneg (Nat.le_succ k) (by have := f.eta_pos; linarith) hf)
    rw [IFl.div_fin hc0.ne']
    exact (ofQ_any he hE hB (key a rfl)).finite hf

/-- `b * x` with an exact `b`. -/
theorem mul_left {k : ℕ} {e A E B b : ℚ} {x : IFl f} (hx : ApproxI f k e A E B x) (B' : ℚ) (hB1 : B ≤ B')
    (hB2 : |b| * A + (|b| * E + f.eta) ≤ B') :
    ApproxI f (k + 1) (b * e) (|b| * A) (|b| * E + f.eta) B' ((IFl.fin b : IFl f) * x) := by
  have he : |b * e| ≤ |b| * A := by
    rw [abs_mul]; exact mul_le_mul_of_nonneg_left hx.exact_le (_root_.abs_nonneg b)
  have hE : 0 ≤ |b| * E := mul_nonneg (_root_.abs_nonneg _) hx.abs_nonneg
  have key : ∀ a, x = IFl.fin a →
      |b * a - b * e| ≤ ((1 + f.u) ^ k - 1) * (|b| * A) + (1 + f.u) ^ k * (|b| * E) := by
    rintro a rfl
    obtain ⟨ga, ea⟩ := hx.err a rfl
    rw [← mul_sub, abs_mul]
    have h1 := mul_le_mul_of_nonneg_left ea (_root_.abs_nonneg b)
    linarith
  refine ⟨he, add_nonneg hE f.eta_pos.le, hB2, fun q hq => ?_, fun hf => ?_⟩
  · obtain ⟨b', a, h0, rfl, -⟩ := IFl.mul_eq_fin hq
    rw [IFl.mul_fin] at hq
    exact (ofQ_any he hE hB2 (key a rfl)).err q hq
  · obtain ⟨a, rfl⟩ := hx.finite (lt_of_lt hx.B_nonneg (Nat.le_succ k) hB1 hf)
    rw [IFl.mul_fin]
    exact (ofQ_any he hE hB2 (key a rfl)).finite hf

/-- `fma(x, b, c)` with exact `b` and `c`. -/
theorem fma {k : ℕ} {e A E B b c : ℚ} {x : IFl f} (hx : ApproxI f k e A E B x) (M : ℚ) (hM : 1 ≤ M)
    (hb : |b| ≤ M) :
    ApproxI f (k + 1) (e * b + c) (A * |b| + |c|) (E * |b| + f.eta) (B * M + |c| + f.eta)
      (IFl.fma x (IFl.fin b) (IFl.fin c)) := by
  have he : |e * b + c| ≤ A * |b| + |c| := by
    refine (abs_add_le _ _).trans ?_
    rw [abs_mul]
    have := mul_le_mul_of_nonneg_right hx.exact_le (_root_.abs_nonneg b)
    linarith
  have hE : 0 ≤ E * |b| := mul_nonneg hx.abs_nonneg (_root_.abs_nonneg _)
  have hBM : B ≤ B * M := le_mul_of_one_le_right hx.B_nonneg hM
  have hB : A * |b| + |c| + (E * |b| + f.eta) ≤ B * M + |c| + f.eta := by
    have h1 : (A + E) * |b| ≤ B * M :=
      mul_le_mul hx.le_B hb (_root_.abs_nonneg _) hx.B_nonneg
    linarith
  have key : ∀ a, x = IFl.fin a →
      |a * b + c - (e * b + c)| ≤ ((1 + f.u) ^ k - 1) * (A * |b| + |c|) + (1 + f.u) ^ k * (E * |b|) := by
    rintro a rfl
    obtain ⟨ga, ea⟩ := hx.err a rfl
    have h0 : a * b + c - (e * b + c) = (a - e) * b := by ring
    rw [h0, abs_mul]
    have h1 := mul_le_mul_of_nonneg_right ea (_root_.abs_nonneg b)
    have h2 : 0 ≤ ((1 + f.u) ^ k - 1) * |c| :=
      mul_nonneg (by have := one_le_M (f := f) k; linarith) (_root_.abs_nonneg _)
    refine h1.trans ?_
    rw [add_mul, mul_add]
    linarith
  refine ⟨he, add_nonneg hE f.eta_pos.le, hB, fun q hq => ?_, fun hf => ?_⟩
  · obtain ⟨a, b', c', rfl, h1, h2, -⟩ := IFl.fma_eq_fin hq
    rw [IFl.fma_fin] at hq
    exact (ofQ_any he hE hB (key a rfl)).err q hq
  · obtain ⟨a, rfl⟩ := hx.finite (lt_of_lt hx.B_nonneg (Nat.le_succ k)
      (by have := f.eta_pos; have := _root_.abs_nonneg c; linarith) hf)
    rw [IFl.fma_fin]
    exact (ofQ_any he hE hB (key a rfl)).finite hf

/-- A running sum. -/
theorem foldl_add {ι : Type*} (l : List ι) (v : ι → IFl f) (e A E B : ι → ℚ) (k : ℕ)
    (h : ∀ i ∈ l, ApproxI f k (e i) (A i) (E i) (B i) (v i)) (a : IFl f) (e0 A0 E0 B0 : ℚ)
    (ha : ApproxI f k e0 A0 E0 B0 a) :
    ApproxI f (k + l.length) (e0 + (l.map e).sum) (A0 + (l.map A).sum) (E0 + (l.map E).sum)
      (B0 + (l.map B).sum) (l.foldl (fun acc i => acc + v i) a) := by
  induction l generalizing a e0 A0 E0 B0 k with
  | nil => simpa using ha
  | cons i l ih =>
    have h1 := add ha (h i (by simp))
    have h2 := ih (k + 1) (fun j hj => (h j (List.mem_cons_of_mem _ hj)).mono_k (Nat.le_succ k)) _ _ _ _ _ h1
    simp only [List.map_cons, List.sum_cons, List.foldl_cons, List.length_cons, ← add_assoc]
    rw [show k + l.length + 1 = k + 1 + l.length by omega]
    exact h2

end ApproxI
end SciCpp
