import Verif.Model.WindowsF
import Verif.Proofs.Windows
import Verif.Proofs.Exactly
import Verif.Proofs.Approx
import Verif.Props.QFloat
import Verif.Props.RangeF
import Verif.Props.QCast
import Mathlib.Analysis.Real.Pi.Bounds
/-
  Property theorems C116: the windows in floating point.
-/
namespace SciCpp
open Spec

section ieee
variable {f : Fmt}

/-- Rounding keeps a number between two representable ones. -/
theorem ofQ_mem {lo hi q : ℚ} (hlo : f.rnd lo = lo) (hhi : f.rnd hi = hi) (bl : |lo| < (2 : ℚ) ^ f.emax)
    (bh : |hi| < (2 : ℚ) ^ f.emax) (h1 : lo ≤ q) (h2 : q ≤ hi) :
    (IFl.ofQ q : IFl f) = IFl.fin (f.rnd q) ∧ lo ≤ f.rnd q ∧ f.rnd q ≤ hi := by
  have e1 := f.rnd_mono h1
  have e2 := f.rnd_mono h2
  rw [hlo] at e1
  rw [hhi] at e2
  refine ⟨?_, e1, e2⟩
  unfold IFl.ofQ
  rw [f.ofRat_fin]
  · rfl
  · rw [abs_lt] at bl bh ⊢
    constructor <;> linarith

theorem rnd_int (hf : StdFmt f) (n : ℤ) (h : |n| ≤ 2 ^ (f.frac + 1)) : f.rnd (n : ℚ) = n := by
  have := f.rnd_exact n 0 (by have := hf.low; omega) h
  simpa using this

theorem abs_lt_emax (hm : (f.frac : ℤ) + 1 < f.emax) {q : ℚ} (h : |q| ≤ 2 ^ (f.frac + 1)) :
    |q| < (2 : ℚ) ^ f.emax := by
  refine lt_of_le_of_lt h ?_
  rw [← zpow_natCast]
  exact zpow_lt_zpow_right₀ (by norm_num) (by push_cast; exact hm)

theorem ofQ_int (hf : StdFmt f) (hm : (f.frac : ℤ) + 1 < f.emax) (n : ℤ) (h : |n| ≤ 2 ^ (f.frac + 1)) :
    (IFl.ofQ (n : ℚ) : IFl f) = IFl.fin n := by
  have e := rnd_int hf n h
  have := (ofQ_mem (f := f) e e (abs_lt_emax hm (by exact_mod_cast h))
    (abs_lt_emax hm (by exact_mod_cast h)) le_rfl le_rfl).1
  rw [this, e]

theorem castK_ieee (hf : StdFmt f) (hm : (f.frac : ℤ) + 1 < f.emax) (n : ℕ) (h : n ≤ 2 ^ (f.frac + 1)) :
    (castK n : IFl f) = IFl.fin n := by
  have := ofQ_int hf hm (n : ℤ) (by rw [Nat.abs_cast]; exact_mod_cast h)
  unfold castK
  rw [IFl.ofInt_def, this]
  simp

theorem toNat_fin (n : ℕ) : Fl.toNat (Fl.fin (n : ℚ)) = n := by simp [Fl.toNat]

/-- The elements of a filled window. -/
theorem fill_get {α : Type*} (cast : ℕ → α) (g : α → α) (w r : List α) (h : symmetricFiller cast g w = .ok r) :
    r.length = w.length ∧ ∀ i (hi : i < r.length), r[i] = g (cast (max i (w.length - 1 - i))) := by
  rw [symmetricFiller_eq] at h
  cases h
  exact ⟨by simp, fun i hi => by simp⟩

/-- Every value of a window filled with a function whose values at the indices of the upper half satisfy `P` satisfies
`P`; same for the periodic variant. -/
theorem build_forall {α : Type*} (d : α) (cast : ℕ → α) (g : ℕ → α → α) (P : α → Prop) (m : ℕ) (s : Sym)
    (hP : ∀ n i, (n = m ∧ s = .symmetric ∨ n = m + 1 ∧ s = .periodic) → n / 2 ≤ i → i < n → P (g n (cast i))) :
    ∃ r, buildWindow d s m (fun w => symmetricFiller cast (g w.length) w) = .ok r ∧ r.length = m ∧ ∀ x ∈ r, P x := by
  have key : ∀ n, (n = m ∧ s = .symmetric ∨ n = m + 1 ∧ s = .periodic) → ∀ x ∈ (List.range n).map
      (fun i : ℕ => g n (cast (max i (n - 1 - i)))), P x := by
    intro n hn x hx
    rw [List.mem_map] at hx
    obtain ⟨i, hi, rfl⟩ := hx
    rw [List.mem_range] at hi
    exact hP n _ hn (by omega) (by omega)
  cases s with
  | symmetric =>
    refine ⟨_, symmetricFiller_eq _ _ _, by simp, ?_⟩
    simp only [List.length_replicate]
    exact key m (.inl ⟨rfl, rfl⟩)
  | periodic =>
    refine ⟨_, by unfold buildWindow; simp only [symmetricFiller_eq, Res.bind_ok]; rfl, by simp, ?_⟩
    simp only [List.length_replicate]
    intro x hx
    exact key (m + 1) (.inr ⟨rfl, rfl⟩) x (List.mem_of_mem_take hx)

theorem ofQ_rep {q : ℚ} (h : f.rnd q = q) (hb : |q| < (2 : ℚ) ^ f.emax) : (IFl.ofQ q : IFl f) = IFl.fin q := by
  have := (ofQ_mem (f := f) h h hb hb le_rfl le_rfl).1
  rw [this, h]

theorem sizeM1_ieee (hf : StdFmt f) (hm : (f.frac : ℤ) + 1 < f.emax) (n : ℕ) (h0 : 1 ≤ n) (h : n ≤ 2 ^ (f.frac + 1)) :
    (sizeM1K n : IFl f) = IFl.fin ((n : ℚ) - 1) := by
  unfold sizeM1K
  rw [if_neg (by omega), castK_ieee hf hm _ (by omega), Nat.cast_sub h0, Nat.cast_one]

/-- The scaling of the cosine sums is finite and at most 8. -/
theorem scaling_ieee (hf : StdFmt f) (h5 : (f.frac : ℤ) + 5 ≤ f.emax) (hfr : 3 ≤ f.frac) (pi : ℚ) (hpi : |pi| ≤ 4) (n : ℕ)
    (h0 : 2 ≤ n) (h : n ≤ 2 ^ (f.frac + 1)) :
    ∃ sc : ℚ, (CppNum.ofInt 2 * (IFl.fin pi : IFl f) / sizeM1K n : IFl f) = IFl.fin sc ∧ |sc| ≤ 8 := by
  have hm : (f.frac : ℤ) + 1 < f.emax := by omega
  have h16 : (16 : ℤ) ≤ 2 ^ (f.frac + 1) := by
    calc (16 : ℤ) = 2 ^ (3 + 1) := by norm_num
      _ ≤ 2 ^ (f.frac + 1) := pow_le_pow_right₀ (by norm_num) (by omega)
  have r8 : f.rnd 8 = 8 := by have := rnd_int hf 8 (by rw [abs_of_pos] <;> omega); exact_mod_cast this
  have r8' : f.rnd (-8) = -8 := by rw [f.rnd_neg, r8]
  have b8 : |(8 : ℚ)| < (2 : ℚ) ^ f.emax := abs_lt_emax hm (by
    rw [abs_of_pos (by norm_num)]
    have : ((16 : ℤ) : ℚ) ≤ ((2 ^ (f.frac + 1) : ℤ) : ℚ) := by exact_mod_cast h16
    push_cast at this; linarith)
  have b8' : |(-8 : ℚ)| < (2 : ℚ) ^ f.emax := by rw [abs_neg]; exact b8
  have e2 : (CppNum.ofInt 2 : IFl f) = IFl.fin 2 := by
    rw [IFl.ofInt_def, ofQ_int hf hm 2 (by rw [abs_of_pos] <;> omega)]; norm_num
  rw [abs_le] at hpi
  obtain ⟨m1, m2, m3⟩ := ofQ_mem (f := f) r8' r8 b8' b8 (show -8 ≤ 2 * pi by linarith) (show 2 * pi ≤ 8 by linarith)
  have hn1 : (1 : ℚ) ≤ (n : ℚ) - 1 := by
    have : (2 : ℚ) ≤ n := by exact_mod_cast h0
    linarith
  obtain ⟨k1, k2, k3⟩ := ofQ_mem (f := f) (q := f.rnd (2 * pi) / ((n : ℚ) - 1)) r8' r8 b8' b8
    (by rw [le_div_iff₀ (by linarith)]; nlinarith) (by rw [div_le_iff₀ (by linarith)]; nlinarith)
  refine ⟨f.rnd (f.rnd (2 * pi) / ((n : ℚ) - 1)), ?_, abs_le.2 ⟨k2, k3⟩⟩
  rw [e2, sizeM1_ieee hf hm n (by omega) h, IFl.mul_fin, m1, IFl.div_fin (by linarith), k1]

/-- A representable number between 1/2 and 1 is a multiple of `2^-(frac+1)`. -/
theorem half_form (hf : StdFmt f) {α : ℚ} (hα : f.rnd α = α) (h1 : 1 / 2 ≤ α) (h2 : α ≤ 1) :
    ∃ M : ℤ, α = M * (2 : ℚ) ^ (-((f.frac : ℤ) + 1)) := by
  have hp : (2 : ℚ) ^ ((f.frac : ℤ) + 1) * (2 : ℚ) ^ (-((f.frac : ℤ) + 1)) = 1 := by
    rw [← zpow_add₀ two_ne_zero]; simp
  rcases eq_or_lt_of_le h2 with rfl | h2
  · refine ⟨2 ^ (f.frac + 1), ?_⟩
    push_cast
    rw [← zpow_natCast]; push_cast; exact hp.symm
  · have h0 : α ≠ 0 := by linarith
    obtain ⟨e1, e2⟩ := expo_spec h0
    rw [abs_of_pos (by linarith)] at e1 e2
    have a1 : expo α < 0 := by
      refine (zpow_lt_zpow_iff_right₀ (by norm_num : (1 : ℚ) < 2)).1 (lt_of_le_of_lt e1 ?_)
      rw [zpow_zero]; exact h2
    have a2 : -1 < expo α + 1 := by
      refine (zpow_lt_zpow_iff_right₀ (by norm_num : (1 : ℚ) < 2)).1 (lt_of_le_of_lt ?_ e2)
      norm_num at h1 ⊢; linarith
    have a3 : expo α = -1 := by omega
    unfold Fmt.rnd at hα
    rw [if_neg h0, a3, max_eq_left (by have := hf.low; omega)] at hα
    simp only at hα
    refine ⟨nearestEven (α * (2 : ℚ) ^ ((f.frac : ℤ) - -1)), ?_⟩
    rw [zpow_neg, ← div_eq_mul_inv, ← sub_neg_eq_add]
    exact hα.symm

/-- C116: a generalised Hamming window with a weight `α` between 1/2 and 1 (Hann, Hamming) has all its samples between
`2α - 1` and 1, exactly, for every number of points and whatever rounding errors `std::cos` makes, as long as it stays
within `[-1, 1]` and `cos 0 = 1`. -/
theorem C116_hamming_range (hf : StdFmt f) (h5 : (f.frac : ℤ) + 5 ≤ f.emax) (hfr : 3 ≤ f.frac) (pi : ℚ) (hpi : |pi| ≤ 4)
    (cos exp sqrt bessel : IFl f → IFl f) (hcos : ∀ x, ∃ c, cos (IFl.fin x) = IFl.fin c ∧ |c| ≤ 1)
    (hcos0 : cos (IFl.fin 0) = IFl.fin 1) (α : ℚ) (hα : f.rnd α = α) (h1 : 1 / 2 ≤ α) (h2 : α ≤ 1) (s : Sym) (m : ℕ)
    (hs : s = .symmetric → 2 ≤ m) (hs' : 1 ≤ m) (hm : m < 2 ^ (f.frac + 1)) :
    ∃ r, generalHammingK (ieeeOps f (IFl.fin pi) cos exp sqrt bessel) s m (IFl.fin α) = .ok r ∧ r.length = m ∧
      ∀ x ∈ r, ∃ v, x = IFl.fin v ∧ 2 * α - 1 ≤ v ∧ v ≤ 1 := by
  have he : (f.frac : ℤ) + 1 < f.emax := by omega
  have h16 : (16 : ℤ) ≤ 2 ^ (f.frac + 1) := by
    calc (16 : ℤ) = 2 ^ (3 + 1) := by norm_num
      _ ≤ 2 ^ (f.frac + 1) := pow_le_pow_right₀ (by norm_num) (by omega)
  have hB : (1 : ℚ) < (2 : ℚ) ^ f.emax := by
    have := one_lt_zpow₀ (by norm_num : (1 : ℚ) < 2) (show 0 < f.emax by omega)
    exact this
  have blt : ∀ q : ℚ, |q| ≤ 1 → |q| < (2 : ℚ) ^ f.emax := fun q hq => lt_of_le_of_lt hq hB
  have i1 : (CppNum.ofInt 1 : IFl f) = IFl.fin 1 := by
    rw [IFl.ofInt_def, ofQ_int hf he 1 (by rw [abs_of_pos] <;> omega)]; norm_num
  have im1 : (CppNum.ofInt (-1) : IFl f) = IFl.fin (-1) := by
    rw [IFl.ofInt_def, ofQ_int hf he (-1) (by rw [abs_neg, abs_of_pos] <;> omega)]; norm_num
  have r1 : f.rnd 1 = 1 := by have := rnd_int hf 1 (by rw [abs_of_pos] <;> omega); exact_mod_cast this
  -- `1 - α` and `2α - 1` are representable
  obtain ⟨M, hM⟩ := half_form hf hα h1 h2
  set p : ℚ := (2 : ℚ) ^ (-((f.frac : ℤ) + 1)) with hp
  have hp0 : 0 < p := by positivity
  have hpp : ((2 ^ (f.frac + 1) : ℤ) : ℚ) * p = 1 := by
    push_cast
    rw [hp, ← zpow_natCast, ← zpow_add₀ two_ne_zero]; simp
  have hMu : M ≤ 2 ^ (f.frac + 1) := by
    have : (M : ℚ) * p ≤ ((2 ^ (f.frac + 1) : ℤ) : ℚ) * p := by rw [hpp, ← hM]; exact h2
    exact_mod_cast le_of_mul_le_mul_right this hp0
  have hMl : 2 ^ (f.frac + 1) ≤ 2 * M := by
    have : ((2 ^ (f.frac + 1) : ℤ) : ℚ) * p ≤ ((2 * M : ℤ) : ℚ) * p := by rw [hpp]; push_cast; rw [mul_assoc, ← hM]; linarith
    exact_mod_cast le_of_mul_le_mul_right this hp0
  have hlow : f.emin - f.frac ≤ -((f.frac : ℤ) + 1) := by have := hf.low; omega
  have rc : f.rnd (1 - α) = 1 - α := by
    have := f.rnd_exact (2 ^ (f.frac + 1) - M) _ hlow (by rw [abs_le]; constructor <;> linarith)
    rw [← hp] at this
    have e : 1 - α = ((2 ^ (f.frac + 1) - M : ℤ) : ℚ) * p := by
      rw [Int.cast_sub, sub_mul, hpp, ← hM]
    rw [e, this]
  have rd' : f.rnd (2 * α - 1) = 2 * α - 1 := by
    have := f.rnd_exact (2 * M - 2 ^ (f.frac + 1)) _ hlow (by rw [abs_le]; constructor <;> linarith)
    rw [← hp] at this
    have e : 2 * α - 1 = ((2 * M - 2 ^ (f.frac + 1) : ℤ) : ℚ) * p := by
      rw [Int.cast_sub, sub_mul, hpp, Int.cast_mul, mul_assoc, ← hM]; norm_num
    rw [e, this]
  unfold generalHammingK generalCosineK generalCosineFillerK fillIdxK
  refine build_forall (0 : IFl f) castK
    (fun n t => cosineLoopK (ieeeOps f (IFl.fin pi) cos exp sqrt bessel)
      (CppNum.ofInt 2 * (IFl.fin pi : IFl f) / sizeM1K n : IFl f) (Fl.toNat t)
        [IFl.fin α, CppNum.ofInt 1 - IFl.fin α] 0 (CppNum.ofInt (-1)) 0) _ m s ?_
  intro n i hn _ hi
  have hn2 : 2 ≤ n ∧ n ≤ 2 ^ (f.frac + 1) := by rcases hn with ⟨rfl, h⟩ | ⟨rfl, h⟩ <;> [have := hs h; skip] <;> omega
  obtain ⟨sc, e1, e2⟩ := scaling_ieee hf h5 hfr pi hpi n hn2.1 hn2.2
  have hci : (castK i : IFl f) = IFl.fin i := castK_ieee hf he i (by omega)
  obtain ⟨c, hc1, hc2⟩ : ∃ c, cos ((IFl.fin sc : IFl f) * castK (i * 1)) = IFl.fin c ∧ |c| ≤ 1 := by
    rw [mul_one, hci, IFl.mul_fin]
    have hz : (8 : ℚ) * (2 : ℚ) ^ (f.frac + 1) = ((1 : ℤ) : ℚ) * (2 : ℚ) ^ ((f.frac : ℤ) + 4) := by
      rw [show (f.frac : ℤ) + 4 = ((f.frac + 1 : ℕ) : ℤ) + 3 by push_cast; ring, zpow_add₀ two_ne_zero, zpow_natCast]
      norm_num; ring
    have rz : f.rnd (8 * (2 : ℚ) ^ (f.frac + 1)) = 8 * (2 : ℚ) ^ (f.frac + 1) := by
      rw [hz]
      exact f.rnd_exact 1 _ (by have := hf.low; omega) (by rw [abs_one]; omega)
    have rz' : f.rnd (-(8 * (2 : ℚ) ^ (f.frac + 1))) = -(8 * (2 : ℚ) ^ (f.frac + 1)) := by rw [f.rnd_neg, rz]
    have bz : |(8 * (2 : ℚ) ^ (f.frac + 1))| < (2 : ℚ) ^ f.emax := by
      rw [hz, Int.cast_one, one_mul, abs_of_pos (by positivity)]
      exact zpow_lt_zpow_right₀ (by norm_num) (by omega)
    have hi' : (i : ℚ) ≤ 2 ^ (f.frac + 1) := by exact_mod_cast (show i ≤ 2 ^ (f.frac + 1) by omega)
    have hab : |sc * i| ≤ 8 * (2 : ℚ) ^ (f.frac + 1) := by
      rw [abs_mul, Nat.abs_cast]
      exact mul_le_mul e2 hi' (by positivity) (by norm_num)
    rw [abs_le] at hab
    obtain ⟨z1, -, -⟩ := ofQ_mem (f := f) rz' rz (by rw [abs_neg]; exact bz) bz hab.1 hab.2
    rw [z1]
    exact hcos _
  rw [abs_le] at hc2
  -- the products and sums
  have e0 : (IFl.fin sc : IFl f) * castK (i * 0) = IFl.fin 0 := by
    rw [mul_zero, castK_ieee hf he 0 (by omega), IFl.mul_fin, Nat.cast_zero, mul_zero, ofQ_rep f.rnd_zero (blt 0 (by simp))]
  have s1 : (CppNum.ofInt (-1) : IFl f) * CppNum.ofInt (-1) = IFl.fin 1 := by
    rw [im1, IFl.mul_fin, show (-1 : ℚ) * -1 = 1 by norm_num, ofQ_rep r1 (blt 1 (by simp))]
  have bα : |α| ≤ 1 := by rw [abs_le]; constructor <;> linarith
  have bc : |1 - α| ≤ 1 := by rw [abs_le]; constructor <;> linarith
  have s2 : (IFl.fin 1 : IFl f) * IFl.fin α * IFl.fin 1 = IFl.fin α := by
    rw [IFl.mul_fin, one_mul, ofQ_rep hα (blt _ bα), IFl.mul_fin, mul_one, ofQ_rep hα (blt _ bα)]
  have s3 : (0 : IFl f) + IFl.fin α = IFl.fin α := by
    rw [IFl.zero_fin, IFl.add_fin, zero_add, ofQ_rep hα (blt _ bα)]
  have s4 : (IFl.fin 1 : IFl f) * CppNum.ofInt (-1) = IFl.fin (-1) := by
    rw [im1, IFl.mul_fin, one_mul, ofQ_rep (by rw [f.rnd_neg, r1]) (blt _ (by simp))]
  have s5 : (CppNum.ofInt 1 - IFl.fin α : IFl f) = IFl.fin (1 - α) := by
    rw [i1, IFl.sub_fin, ofQ_rep rc (blt _ bc)]
  have s6 : (IFl.fin (-1) : IFl f) * IFl.fin (1 - α) = IFl.fin (-(1 - α)) := by
    rw [IFl.mul_fin, neg_one_mul, ofQ_rep (by rw [f.rnd_neg, rc]) (blt _ (by rw [abs_neg]; exact bc))]
  obtain ⟨t1, t2, t3⟩ := ofQ_mem (f := f) (lo := -(1 - α)) (hi := 1 - α) (q := -(1 - α) * c) (by rw [f.rnd_neg, rc]) rc
    (blt _ (by rw [abs_neg]; exact bc)) (blt _ bc) (by nlinarith) (by nlinarith)
  obtain ⟨u1, u2, u3⟩ := ofQ_mem (f := f) (lo := 2 * α - 1) (hi := 1) (q := α + f.rnd (-(1 - α) * c)) rd' r1
    (blt _ (by rw [abs_le]; constructor <;> linarith)) (blt _ (by simp)) (by linarith) (by linarith)
  refine ⟨f.rnd (α + f.rnd (-(1 - α) * c)), ?_, u2, u3⟩
  rw [e1, hci]
  simp only [cosineLoopK, ieeeOps]
  rw [show Fl.toNat (IFl.fin (i : ℚ) : IFl f) = i from toNat_fin i, s1, e0, hcos0, s2, s3, s4, s5, s6, zero_add, hc1,
    IFl.mul_fin, t1, IFl.add_fin, u1]

theorem ofInt_ieee (hf : StdFmt f) (hm : (f.frac : ℤ) + 1 < f.emax) (n : ℤ) (h : |n| ≤ 2 ^ (f.frac + 1)) :
    (CppNum.ofInt n : IFl f) = IFl.fin n := by rw [IFl.ofInt_def, ofQ_int hf hm n h]

/-- Multiples of 1/2 below `2^frac` are exact. -/
theorem rnd_halfInt (hf : StdFmt f) (n : ℤ) (h : |n| ≤ 2 ^ (f.frac + 1)) : f.rnd ((n : ℚ) / 2) = (n : ℚ) / 2 := by
  have := f.rnd_exact n (-1) (by have := hf.low; omega) h
  rw [show (n : ℚ) * (2 : ℚ) ^ (-1 : ℤ) = (n : ℚ) / 2 by rw [zpow_neg_one]; ring] at this
  exact this

theorem ofQ_half (hf : StdFmt f) (hm : (f.frac : ℤ) + 1 < f.emax) (n : ℤ) (h : |n| ≤ 2 ^ (f.frac + 1)) :
    (IFl.ofQ ((n : ℚ) / 2) : IFl f) = IFl.fin ((n : ℚ) / 2) := by
  refine ofQ_rep (rnd_halfInt hf n h) ?_
  refine abs_lt_emax hm ?_
  rw [abs_div, abs_two]
  have : (|n| : ℚ) ≤ 2 ^ (f.frac + 1) := by exact_mod_cast h
  have := abs_nonneg (n : ℚ)
  linarith

/-- C116: Hann windows are between 0 and 1. -/
theorem C116_hann (hf : StdFmt f) (h5 : (f.frac : ℤ) + 5 ≤ f.emax) (hfr : 3 ≤ f.frac) (pi : ℚ) (hpi : |pi| ≤ 4)
    (cos exp sqrt bessel : IFl f → IFl f) (hcos : ∀ x, ∃ c, cos (IFl.fin x) = IFl.fin c ∧ |c| ≤ 1)
    (hcos0 : cos (IFl.fin 0) = IFl.fin 1) (s : Sym) (m : ℕ)
    (hs : s = .symmetric → 2 ≤ m) (hs' : 1 ≤ m) (hm : m < 2 ^ (f.frac + 1)) :
    ∃ r, hannK (ieeeOps f (IFl.fin pi) cos exp sqrt bessel) s m = .ok r ∧ r.length = m ∧
      ∀ x ∈ r, ∃ v, x = IFl.fin v ∧ 0 ≤ v ∧ v ≤ 1 := by
  have h1 : |(1 : ℤ)| ≤ 2 ^ (f.frac + 1) := by rw [abs_one]; exact one_le_pow₀ (by norm_num)
  have e : (IFl.ofQ (0.5 : ℚ) : IFl f) = IFl.fin (1 / 2) := by
    have := ofQ_half hf (by omega) 1 h1
    rw [show (0.5 : ℚ) = ((1 : ℤ) : ℚ) / 2 by norm_num, this]; norm_num
  have hr := rnd_halfInt hf 1 h1
  rw [Int.cast_one] at hr
  have := C116_hamming_range hf h5 hfr pi hpi cos exp sqrt bessel hcos hcos0 (1 / 2) hr le_rfl (by norm_num) s m hs hs' hm
  unfold hannK
  rw [show (ieeeOps f (IFl.fin pi) cos exp sqrt bessel).lit 0.5 = (IFl.fin (1 / 2) : IFl f) from e]
  norm_num at this ⊢
  exact this

/-- C116: Hamming windows are between 0.07 and 1. -/
theorem C116_hamming (hf : StdFmt f) (h5 : (f.frac : ℤ) + 5 ≤ f.emax) (hfr : 7 ≤ f.frac) (pi : ℚ) (hpi : |pi| ≤ 4)
    (cos exp sqrt bessel : IFl f → IFl f) (hcos : ∀ x, ∃ c, cos (IFl.fin x) = IFl.fin c ∧ |c| ≤ 1)
    (hcos0 : cos (IFl.fin 0) = IFl.fin 1) (s : Sym) (m : ℕ)
    (hs : s = .symmetric → 2 ≤ m) (hs' : 1 ≤ m) (hm : m < 2 ^ (f.frac + 1)) :
    ∃ r, hammingK (ieeeOps f (IFl.fin pi) cos exp sqrt bessel) s m = .ok r ∧ r.length = m ∧
      ∀ x ∈ r, ∃ v, x = IFl.fin v ∧ 0.07 ≤ v ∧ v ≤ 1 := by
  have h1 : |(1 : ℤ)| ≤ 2 ^ (f.frac + 1) := by rw [abs_one]; exact one_le_pow₀ (by norm_num)
  have hr := rnd_halfInt hf 1 h1
  rw [Int.cast_one] at hr
  have hr1 : f.rnd 1 = 1 := by have := rnd_int hf 1 h1; exact_mod_cast this
  have h137 : f.rnd (137 / 256) = 137 / 256 := by
    have := f.rnd_exact 137 (-8) (by have := hf.low; omega) (by
      rw [abs_of_pos (by norm_num)]
      calc (137 : ℤ) ≤ 2 ^ (7 + 1) := by norm_num
        _ ≤ _ := pow_le_pow_right₀ (by norm_num) (by omega))
    norm_num at this ⊢; exact this
  have hB : (1 : ℚ) < (2 : ℚ) ^ f.emax := one_lt_zpow₀ (by norm_num : (1 : ℚ) < 2) (show 0 < f.emax by omega)
  obtain ⟨e1, e2, e3⟩ := ofQ_mem (f := f) (q := 0.54) h137 hr1
    (lt_of_le_of_lt (by norm_num [abs_of_pos]) hB) (by rw [abs_one]; exact hB) (by norm_num) (by norm_num)
  obtain ⟨r, k1, k2, k3⟩ := C116_hamming_range hf h5 (by omega) pi hpi cos exp sqrt bessel hcos hcos0 (f.rnd 0.54)
    (f.rnd_idem _) (by linarith) e3 s m hs hs' hm
  refine ⟨r, ?_, k2, fun x hx => ?_⟩
  · unfold hammingK
    rw [show (ieeeOps f (IFl.fin pi) cos exp sqrt bessel).lit 0.54 = (IFl.fin (f.rnd 0.54) : IFl f) from e1]
    exact k1
  · obtain ⟨v, v1, v2, v3⟩ := k3 x hx
    refine ⟨v, v1, ?_, v3⟩
    norm_num at e2 v2 ⊢
    linarith

/-- C116: the argument of `std::sqrt` in a Kaiser window is never negative, and the samples are between 0 and 1, when
`std::sqrt` maps `[0, 1]` to itself, the Bessel function is increasing and `I0(beta)` does not overflow. -/
theorem C116_kaiser (hf : StdFmt f) (he : (f.frac : ℤ) + 1 < f.emax) (pi : IFl f)
    (cos exp sqrt bessel : IFl f → IFl f) (hsq : ∀ x, 0 ≤ x → x ≤ 1 → ∃ y, sqrt (IFl.fin x) = IFl.fin y ∧ 0 ≤ y ∧ y ≤ 1)
    (β b : ℚ) (hβ : Finite f β) (hb : bessel (IFl.fin |β|) = IFl.fin b)
    (hbes : ∀ x, 0 ≤ x → x ≤ |β| → ∃ y, bessel (IFl.fin x) = IFl.fin y ∧ 1 ≤ y ∧ y ≤ b) (s : Sym) (m : ℕ)
    (hs : s = .symmetric → 2 ≤ m) (hs' : 1 ≤ m) (hm : m < 2 ^ (f.frac + 1)) :
    ∃ r, kaiserK (ieeeOps f pi cos exp sqrt bessel) s m (IFl.fin β) = .ok r ∧ r.length = m ∧
      ∀ x ∈ r, ∃ v, x = IFl.fin v ∧ 0 ≤ v ∧ v ≤ 1 := by
  have h2 : (2 : ℤ) ≤ 2 ^ (f.frac + 1) := by
    calc (2 : ℤ) = 2 ^ 1 := by norm_num
      _ ≤ _ := pow_le_pow_right₀ (by norm_num) (by omega)
  have h1 : |(1 : ℤ)| ≤ 2 ^ (f.frac + 1) := by rw [abs_one]; omega
  have hB : (1 : ℚ) < (2 : ℚ) ^ f.emax := one_lt_zpow₀ (by norm_num : (1 : ℚ) < 2) (show 0 < f.emax by omega)
  have blt : ∀ q : ℚ, |q| ≤ 1 → |q| < (2 : ℚ) ^ f.emax := fun q hq => lt_of_le_of_lt hq hB
  have r1 : f.rnd 1 = 1 := by have := rnd_int hf 1 h1; exact_mod_cast this
  have i1 : (CppNum.ofInt 1 : IFl f) = IFl.fin 1 := by have := ofInt_ieee hf he 1 h1; exact_mod_cast this
  have mem01 : ∀ q : ℚ, 0 ≤ q → q ≤ 1 → (IFl.ofQ q : IFl f) = IFl.fin (f.rnd q) ∧ 0 ≤ f.rnd q ∧ f.rnd q ≤ 1 :=
    fun q a b => ofQ_mem f.rnd_zero r1 (blt 0 (by simp)) (blt 1 (by simp)) a b
  have el : (IFl.ofQ (0.5 : ℚ) : IFl f) = IFl.fin (1 / 2) := by
    have := ofQ_half hf (by omega) 1 h1
    rw [show (0.5 : ℚ) = ((1 : ℤ) : ℚ) / 2 by norm_num, this]; norm_num
  have hab : f.rnd |β| = |β| := by
    rcases abs_choice β with h | h <;> rw [h]
    · exact hβ.1
    · rw [f.rnd_neg, hβ.1]
  unfold kaiserK kaiserFillerK fillIdxK
  rw [show (ieeeOps f pi cos exp sqrt bessel).abs (IFl.fin β) = (IFl.fin |β| : IFl f) from rfl]
  refine build_forall (0 : IFl f) castK
    (fun n t => bessel (IFl.fin |β| * sqrt (CppNum.ofInt 1 -
      (castK (Fl.toNat t) - IFl.ofQ 0.5 * sizeM1K n) / (IFl.ofQ 0.5 * sizeM1K n) *
        ((castK (Fl.toNat t) - IFl.ofQ 0.5 * sizeM1K n) / (IFl.ofQ 0.5 * sizeM1K n)))) / bessel (IFl.fin |β|)) _ m s ?_
  intro n i hn hi1 hi
  have hn2 : 2 ≤ n ∧ n ≤ 2 ^ (f.frac + 1) := by rcases hn with ⟨rfl, h⟩ | ⟨rfl, h⟩ <;> [have := hs h; skip] <;> omega
  have hn2' : ((n : ℕ) : ℤ) ≤ 2 ^ (f.frac + 1) := by exact_mod_cast hn2.2
  have hci : (castK i : IFl f) = IFl.fin i := castK_ieee hf he i (by omega)
  have ea : (IFl.ofQ 0.5 * sizeM1K n : IFl f) = IFl.fin (((n : ℚ) - 1) / 2) := by
    rw [el, sizeM1_ieee hf he n (by omega) hn2.2, IFl.mul_fin]
    have := ofQ_half hf he ((n : ℤ) - 1) (by rw [abs_of_nonneg (by omega)]; omega)
    push_cast at this
    rw [← this]; congr 1; ring
  have es : (IFl.fin (i : ℚ) - IFl.fin (((n : ℚ) - 1) / 2) : IFl f) = IFl.fin ((2 * i - ((n : ℚ) - 1)) / 2) := by
    rw [IFl.sub_fin]
    have := ofQ_half hf he (2 * (i : ℤ) - ((n : ℤ) - 1)) (by rw [abs_le]; constructor <;> omega)
    push_cast at this
    rw [← this]; congr 1; ring
  have hn1 : (2 : ℚ) ≤ n := by exact_mod_cast hn2.1
  have d0 : (0 : ℚ) ≤ 2 * i - ((n : ℚ) - 1) := by
    have : (n : ℤ) - 1 ≤ 2 * i := by omega
    have : ((n : ℤ) - 1 : ℚ) ≤ 2 * (i : ℤ) := by exact_mod_cast this
    push_cast at this; linarith
  have d1 : (i : ℚ) ≤ (n : ℚ) - 1 := by
    have : (i : ℤ) ≤ (n : ℤ) - 1 := by omega
    have : ((i : ℤ) : ℚ) ≤ (n : ℤ) - 1 := by exact_mod_cast this
    push_cast at this; linarith
  obtain ⟨a1, a2, a3⟩ := mem01 ((2 * i - ((n : ℚ) - 1)) / 2 / (((n : ℚ) - 1) / 2))
    (div_nonneg (by linarith) (by linarith)) (by rw [div_le_one (by linarith)]; linarith)
  set ρ := f.rnd ((2 * i - ((n : ℚ) - 1)) / 2 / (((n : ℚ) - 1) / 2)) with hρ
  obtain ⟨c1, c2, c3⟩ := mem01 (ρ * ρ) (mul_nonneg a2 a2) (by nlinarith)
  obtain ⟨g1, g2, g3⟩ := mem01 (1 - f.rnd (ρ * ρ)) (by linarith) (by linarith)
  obtain ⟨y, y1, y2, y3⟩ := hsq _ g2 g3
  obtain ⟨k1, k2, k3⟩ := ofQ_mem (f := f) (lo := 0) (hi := |β|) (q := |β| * y) f.rnd_zero hab (blt 0 (by simp))
    (by rw [abs_abs]; exact hβ.2) (mul_nonneg (abs_nonneg _) y2) (mul_le_of_le_one_right (abs_nonneg _) y3)
  obtain ⟨z, z1, z2, z3⟩ := hbes _ k2 k3
  obtain ⟨w1, w2, w3⟩ := mem01 (z / b) (div_nonneg (by linarith) (by linarith)) (by rw [div_le_one (by linarith)]; exact z3)
  refine ⟨f.rnd (z / b), ?_, w2, w3⟩
  rw [hci, show Fl.toNat (IFl.fin (i : ℚ) : IFl f) = i from toNat_fin i, hci, ea, es, IFl.div_fin (by linarith), a1,
    IFl.mul_fin, c1, i1, IFl.sub_fin, g1, y1, IFl.mul_fin, k1, z1, hb, IFl.div_fin (by linarith), w1]

theorem centre_ieee (hf : StdFmt f) (he : (f.frac : ℤ) + 1 < f.emax) (pi : IFl f) (cos exp sqrt bessel : IFl f → IFl f)
    (n : ℕ) (h0 : 1 ≤ n) (h : n ≤ 2 ^ (f.frac + 1)) :
    (centreK (ieeeOps f pi cos exp sqrt bessel) n : IFl f) = IFl.fin (((n : ℚ) - 1) / 2) := by
  have h1 : |(1 : ℤ)| ≤ 2 ^ (f.frac + 1) := by rw [abs_one]; exact one_le_pow₀ (by norm_num)
  have hn' : ((n : ℕ) : ℤ) ≤ 2 ^ (f.frac + 1) := by exact_mod_cast h
  have el : (IFl.ofQ (0.5 : ℚ) : IFl f) = IFl.fin (1 / 2) := by
    have := ofQ_half hf (by omega) 1 h1
    rw [show (0.5 : ℚ) = ((1 : ℤ) : ℚ) / 2 by norm_num, this]; norm_num
  have i0 : (CppNum.ofInt 0 : IFl f) = IFl.fin 0 := by have := ofInt_ieee hf he 0 (by simp); exact_mod_cast this
  have hh := ofQ_half hf he ((n : ℤ) - 1) (by rw [abs_of_nonneg (by omega)]; omega)
  push_cast at hh
  unfold centreK
  simp only
  rw [castK_ieee hf he (n / 2) (by omega)]
  split
  · rename_i e
    rw [show (ieeeOps f pi cos exp sqrt bessel).lit 0.5 = (IFl.fin (1 / 2) : IFl f) from el, IFl.sub_fin, ← hh]
    congr 1
    have : (n : ℚ) = 2 * ((n / 2 : ℕ) : ℚ) := by exact_mod_cast (show n = 2 * (n / 2) by omega)
    rw [this]; ring_nf
  · rename_i e
    rw [i0, IFl.sub_fin, ← hh]
    congr 1
    have : (n : ℚ) = 2 * ((n / 2 : ℕ) : ℚ) + 1 := by exact_mod_cast (show n = 2 * (n / 2) + 1 by omega)
    rw [this]; ring_nf

/-- The distance of an index of the upper half to the centre is computed exactly. -/
theorem dist_ieee (hf : StdFmt f) (he : (f.frac : ℤ) + 1 < f.emax) (n i : ℕ) (h : n ≤ 2 ^ (f.frac + 1)) (hi1 : n / 2 ≤ i)
    (hi : i < n) :
    (IFl.fin (i : ℚ) - IFl.fin (((n : ℚ) - 1) / 2) : IFl f) = IFl.fin ((2 * i - ((n : ℚ) - 1)) / 2) ∧
      (0 : ℚ) ≤ 2 * i - ((n : ℚ) - 1) ∧ (i : ℚ) ≤ (n : ℚ) - 1 := by
  have hn' : ((n : ℕ) : ℤ) ≤ 2 ^ (f.frac + 1) := by exact_mod_cast h
  refine ⟨?_, ?_, ?_⟩
  · rw [IFl.sub_fin]
    have := ofQ_half hf he (2 * (i : ℤ) - ((n : ℤ) - 1)) (by rw [abs_le]; constructor <;> omega)
    push_cast at this
    rw [← this]; congr 1; ring
  · have : (n : ℤ) - 1 ≤ 2 * i := by omega
    have : ((n : ℤ) - 1 : ℚ) ≤ 2 * (i : ℤ) := by exact_mod_cast this
    push_cast at this; linarith
  · have : (i : ℤ) ≤ (n : ℤ) - 1 := by omega
    have : ((i : ℤ) : ℚ) ≤ (n : ℤ) - 1 := by exact_mod_cast this
    push_cast at this; linarith

theorem ofQ_nonpos {q : ℚ} (h : q ≤ 0) :
    (IFl.ofQ q : IFl f) = IFl.inf true ∧ q < 0 ∨ ∃ r : ℚ, (IFl.ofQ q : IFl f) = IFl.fin r ∧ r ≤ 0 := by
  by_cases hb : (2 : ℚ) ^ f.emax ≤ |f.rnd q|
  · left
    have hq : q < 0 := by
      refine lt_of_le_of_ne h ?_
      rintro rfl
      rw [f.rnd_zero, abs_zero] at hb
      exact absurd hb (not_le.2 (by positivity))
    refine ⟨?_, hq⟩
    unfold IFl.ofQ Fmt.ofRat
    rw [if_pos hb, decide_eq_true hq]; rfl
  · right
    refine ⟨f.rnd q, ?_, ?_⟩
    · unfold IFl.ofQ Fmt.ofRat
      rw [if_neg hb]; rfl
    · have := f.rnd_mono h
      rwa [f.rnd_zero] at this

/-- C116: a Gaussian window whose `-1/(2σ²)` is computed as a finite number has all its samples between 0 and 1. -/
theorem C116_gaussian (hf : StdFmt f) (he : (f.frac : ℤ) + 1 < f.emax) (pi : IFl f)
    (cos exp sqrt bessel : IFl f → IFl f)
    (hexp : ∀ x, IFl.le x (IFl.fin 0) = true → ∃ y, exp x = IFl.fin y ∧ 0 ≤ y ∧ y ≤ 1) (σ : IFl f) (a : ℚ) (ha : a ≤ 0)
    (hσ : (CppNum.ofInt (-1) / (CppNum.ofInt 2 * σ * σ) : IFl f) = IFl.fin a) (s : Sym) (m : ℕ)
    (hm : m < 2 ^ (f.frac + 1)) :
    ∃ r, gaussianK (ieeeOps f pi cos exp sqrt bessel) s m σ = .ok r ∧ r.length = m ∧
      ∀ x ∈ r, ∃ v, x = IFl.fin v ∧ 0 ≤ v ∧ v ≤ 1 := by
  unfold gaussianK gaussianFillerK fillIdxK
  refine build_forall (0 : IFl f) castK
    (fun n t => exp (CppNum.ofInt (-1) / (CppNum.ofInt 2 * σ * σ) *
      (castK (Fl.toNat t) - centreK (ieeeOps f pi cos exp sqrt bessel) n) *
      (castK (Fl.toNat t) - centreK (ieeeOps f pi cos exp sqrt bessel) n))) _ m s ?_
  intro n i hn hi1 hi
  have hn2 : n ≤ 2 ^ (f.frac + 1) := by rcases hn with ⟨rfl, h⟩ | ⟨rfl, h⟩ <;> omega
  have hci : (castK i : IFl f) = IFl.fin i := castK_ieee hf he i (by omega)
  obtain ⟨d1, d2, d3⟩ := dist_ieee hf he n i hn2 hi1 hi
  refine hexp _ ?_
  rw [hσ, hci, show Fl.toNat (IFl.fin (i : ℚ) : IFl f) = i from toNat_fin i, hci,
    centre_ieee hf he pi cos exp sqrt bessel n (by omega) hn2, d1, IFl.mul_fin]
  set d : ℚ := (2 * i - ((n : ℚ) - 1)) / 2 with hd
  have hd0 : 0 ≤ d := by rw [hd]; linarith
  rcases ofQ_nonpos (f := f) (show a * d ≤ 0 from mul_nonpos_of_nonpos_of_nonneg ha hd0) with ⟨e, hlt⟩ | ⟨q, e, hq⟩
  · rw [e]
    have hd1 : d ≠ 0 := by rintro h; rw [h, mul_zero] at hlt; exact lt_irrefl _ hlt
    have : (IFl.inf true : IFl f) * IFl.fin d = IFl.inf true := by
      show f.round (Fl.mul (Fl.inf true) (Fl.fin d)) = _
      simp only [Fl.mul, if_neg hd1, decide_eq_false (not_lt.2 hd0)]
      rfl
    rw [this]; rfl
  · rw [e, IFl.mul_fin]
    rcases ofQ_nonpos (f := f) (show q * d ≤ 0 from mul_nonpos_of_nonpos_of_nonneg hq hd0) with ⟨e', -⟩ | ⟨q', e', hq'⟩
    · rw [e']; rfl
    · rw [e']
      show decide (q' ≤ 0) = true
      simpa using hq'

set_option maxHeartbeats 1000000 in
/-- C116: the Parzen window has all its samples between 0 and 1, for every number of points. -/
theorem C116_parzen (hf : StdFmt f) (he : (f.frac : ℤ) + 3 < f.emax) (hfr : 4 ≤ f.frac) (pi : IFl f)
    (cos exp sqrt bessel : IFl f → IFl f) (s : Sym) (m : ℕ) (hm : m < 2 ^ (f.frac + 1)) :
    ∃ r, parzenK (ieeeOps f pi cos exp sqrt bessel) s m = .ok r ∧ r.length = m ∧
      ∀ x ∈ r, ∃ v, x = IFl.fin v ∧ 0 ≤ v ∧ v ≤ 1 := by
  have he' : (f.frac : ℤ) + 1 < f.emax := by omega
  have h32 : (32 : ℤ) ≤ 2 ^ (f.frac + 1) := by
    calc (32 : ℤ) = 2 ^ (4 + 1) := by norm_num
      _ ≤ 2 ^ (f.frac + 1) := pow_le_pow_right₀ (by norm_num) (by omega)
  have rep : ∀ (z e : ℤ) (q : ℚ), q = z * (2 : ℚ) ^ e → |z| ≤ 32 → -5 ≤ e → f.rnd q = q := by
    intro z e q hq hz h
    rw [hq]
    exact f.rnd_exact z e (by have := hf.low; omega) (by omega)
  have r1 : f.rnd 1 = 1 := rep 1 0 1 (by norm_num) (by norm_num) (by norm_num)
  have hB : (8 : ℚ) < (2 : ℚ) ^ f.emax := by
    calc (8 : ℚ) = (2 : ℚ) ^ (3 : ℤ) := by norm_num
      _ < _ := zpow_lt_zpow_right₀ (by norm_num) (by omega)
  have blt : ∀ q : ℚ, |q| ≤ 8 → |q| < (2 : ℚ) ^ f.emax := fun q hq => lt_of_le_of_lt hq hB
  have mem : ∀ (hi q : ℚ), f.rnd hi = hi → hi ≤ 8 → 0 ≤ q → q ≤ hi →
      (IFl.ofQ q : IFl f) = IFl.fin (f.rnd q) ∧ 0 ≤ f.rnd q ∧ f.rnd q ≤ hi :=
    fun hi q h h8 a b => ofQ_mem f.rnd_zero h (blt 0 (by simp)) (blt _ (by rw [abs_of_nonneg (a.trans b)]; exact h8)) a b
  have ints : ∀ z : ℤ, |z| ≤ 32 → (CppNum.ofInt z : IFl f) = IFl.fin z := fun z hz => ofInt_ieee hf he' z (by omega)
  have i1 : (CppNum.ofInt 1 : IFl f) = IFl.fin 1 := by have := ints 1 (by norm_num); exact_mod_cast this
  have i2 : (CppNum.ofInt 2 : IFl f) = IFl.fin 2 := by have := ints 2 (by norm_num); exact_mod_cast this
  have i6 : (CppNum.ofInt 6 : IFl f) = IFl.fin 6 := by have := ints 6 (by norm_num); exact_mod_cast this
  unfold parzenK parzenFillerK fillIdxK
  refine build_forall (0 : IFl f) castK
    (fun n t =>
      let i := Fl.toNat t
      let N : ℤ := n
      let k : ℤ := (i : ℤ) - Int.tdiv (N - 1) 2
      let nabs := if k ≥ 0 then k else -k
      let i0 := centreK (ieeeOps f pi cos exp sqrt bessel) n
      let A : IFl f := CppNum.ofInt 2 * (ieeeOps f pi cos exp sqrt bessel).abs (castK i - i0 : IFl f) / castK n
      let B : IFl f := CppNum.ofInt 1 - A
      if nabs ≤ Int.tdiv N 4 then CppNum.ofInt 1 - CppNum.ofInt 6 * A * A * B else CppNum.ofInt 2 * B * B * B) _ m s ?_
  intro n i hn hi1 hi
  have hn2 : n ≤ 2 ^ (f.frac + 1) := by rcases hn with ⟨rfl, h⟩ | ⟨rfl, h⟩ <;> omega
  have hn2' : ((n : ℕ) : ℤ) ≤ 2 ^ (f.frac + 1) := by exact_mod_cast hn2
  have hci : (castK i : IFl f) = IFl.fin i := castK_ieee hf he' i (by omega)
  have hcn : (castK n : IFl f) = IFl.fin n := castK_ieee hf he' n hn2
  obtain ⟨d1, d2, d3⟩ := dist_ieee hf he' n i hn2 hi1 hi
  have hn0 : (0 : ℚ) < n := by exact_mod_cast (show 0 < n by omega)
  have eabs : (ieeeOps f pi cos exp sqrt bessel).abs (IFl.fin ((2 * i - ((n : ℚ) - 1)) / 2) : IFl f)
      = IFl.fin ((2 * i - ((n : ℚ) - 1)) / 2) := by
    show Fl.fin _ = Fl.fin _
    rw [abs_of_nonneg (by linarith)]
  have e2 : (IFl.fin 2 * IFl.fin ((2 * i - ((n : ℚ) - 1)) / 2) : IFl f) = IFl.fin (2 * i - ((n : ℚ) - 1)) := by
    rw [IFl.mul_fin]
    have := ofQ_int hf he' (2 * (i : ℤ) - ((n : ℤ) - 1)) (by rw [abs_le]; constructor <;> omega)
    push_cast at this
    rw [← this]; congr 1; ring
  set κ : ℚ := 2 * i - ((n : ℚ) - 1) with hκ
  have hκn : κ ≤ n := by rw [hκ]; linarith
  obtain ⟨a1, a2, a3⟩ := mem 1 (κ / n) r1 (by norm_num) (div_nonneg d2 hn0.le) (by rw [div_le_one hn0]; exact hκn)
  have hA0 := a3
  obtain ⟨b1, b2, b3⟩ := mem 1 (1 - f.rnd (κ / n)) r1 (by norm_num) (by linarith) (by linarith)
  have half : f.rnd (1 / 2) = 1 / 2 := rep 1 (-1) _ (by norm_num) (by norm_num) (by norm_num)
  simp only
  rw [hci, show Fl.toNat (IFl.fin (i : ℚ) : IFl f) = i from toNat_fin i, hci,
    centre_ieee hf he' pi cos exp sqrt bessel n (by omega) hn2, d1, i2, eabs, e2, hcn, IFl.div_fin hn0.ne', a1, i1, i6,
    IFl.sub_fin, b1]
  have hk : (0 : ℤ) ≤ (i : ℤ) - Int.tdiv ((n : ℤ) - 1) 2 := by
    rw [Int.tdiv_eq_ediv_of_nonneg (by omega)]; omega
  rw [if_pos hk]
  set A : ℚ := f.rnd (κ / n) with hA
  set B : ℚ := f.rnd (1 - A) with hBB
  have hκq : κ = ((2 * (i : ℤ) - ((n : ℤ) - 1) : ℤ) : ℚ) := by rw [hκ]; push_cast; ring
  split
  · rename_i hle
    -- `A ≤ 1/2`
    have hAh : A ≤ 1 / 2 := by
      have : κ / n ≤ 1 / 2 := by
        rw [div_le_div_iff₀ hn0 (by norm_num), one_mul, hκq]
        rw [Int.tdiv_eq_ediv_of_nonneg (by omega), Int.tdiv_eq_ediv_of_nonneg (by omega)] at hle
        exact_mod_cast (show (2 * (i : ℤ) - ((n : ℤ) - 1)) * 2 ≤ n by omega)
      have := f.rnd_mono this
      rwa [half] at this
    by_cases hq : A ≤ 3 / 8
    · obtain ⟨p1, p2, p3⟩ := mem (9 / 4) (6 * A) (rep 9 (-2) _ (by norm_num) (by norm_num) (by norm_num)) (by norm_num)
        (by linarith) (by linarith)
      obtain ⟨q1, q2, q3⟩ := mem (27 / 32) (f.rnd (6 * A) * A) (rep 27 (-5) _ (by norm_num) (by norm_num) (by norm_num))
        (by norm_num) (mul_nonneg p2 a2) (by nlinarith)
      obtain ⟨t1, t2, t3⟩ := mem 1 (f.rnd (f.rnd (6 * A) * A) * B) r1 (by norm_num) (mul_nonneg q2 b2) (by nlinarith)
      obtain ⟨v1, v2, v3⟩ := mem 1 (1 - f.rnd (f.rnd (f.rnd (6 * A) * A) * B)) r1 (by norm_num) (by linarith) (by linarith)
      exact ⟨_, by rw [IFl.mul_fin, p1, IFl.mul_fin, q1, IFl.mul_fin, t1, IFl.sub_fin, v1], v2, v3⟩
    · have hB5 : B ≤ 5 / 8 := by
        have := f.rnd_mono (show 1 - A ≤ 5 / 8 by linarith)
        rwa [rep 5 (-3) (5 / 8) (by norm_num) (by norm_num) (by norm_num)] at this
      obtain ⟨p1, p2, p3⟩ := mem 3 (6 * A) (rep 3 0 _ (by norm_num) (by norm_num) (by norm_num)) (by norm_num)
        (by linarith) (by linarith)
      obtain ⟨q1, q2, q3⟩ := mem (3 / 2) (f.rnd (6 * A) * A) (rep 3 (-1) _ (by norm_num) (by norm_num) (by norm_num))
        (by norm_num) (mul_nonneg p2 a2) (by nlinarith)
      obtain ⟨t1, t2, t3⟩ := mem 1 (f.rnd (f.rnd (6 * A) * A) * B) r1 (by norm_num) (mul_nonneg q2 b2) (by nlinarith)
      obtain ⟨v1, v2, v3⟩ := mem 1 (1 - f.rnd (f.rnd (f.rnd (6 * A) * A) * B)) r1 (by norm_num) (by linarith) (by linarith)
      exact ⟨_, by rw [IFl.mul_fin, p1, IFl.mul_fin, q1, IFl.mul_fin, t1, IFl.sub_fin, v1], v2, v3⟩
  · rename_i hle
    have hAh : 1 / 2 ≤ A := by
      have : 1 / 2 ≤ κ / n := by
        rw [div_le_div_iff₀ (by norm_num) hn0, one_mul, hκq]
        rw [Int.tdiv_eq_ediv_of_nonneg (by omega), Int.tdiv_eq_ediv_of_nonneg (by omega)] at hle
        exact_mod_cast (show (n : ℤ) ≤ (2 * (i : ℤ) - ((n : ℤ) - 1)) * 2 by omega)
      have := f.rnd_mono this
      rwa [half] at this
    have hBh : B ≤ 1 / 2 := by
      have := f.rnd_mono (show 1 - A ≤ 1 / 2 by linarith)
      rwa [half] at this
    obtain ⟨p1, p2, p3⟩ := mem 1 (2 * B) r1 (by norm_num) (by linarith) (by linarith)
    obtain ⟨q1, q2, q3⟩ := mem 1 (f.rnd (2 * B) * B) r1 (by norm_num) (mul_nonneg p2 b2) (by nlinarith)
    obtain ⟨t1, t2, t3⟩ := mem 1 (f.rnd (f.rnd (2 * B) * B) * B) r1 (by norm_num) (mul_nonneg q2 b2) (by nlinarith)
    exact ⟨_, by rw [IFl.mul_fin, p1, IFl.mul_fin, q1, IFl.mul_fin, t1], t2, t3⟩

/-- `1 + 2^-(frac+1)` is a tie and rounds to 1. -/
theorem rnd_one_tie (hf : StdFmt f) (hfr : 1 ≤ f.frac) : f.rnd (1 + f.u) = 1 := by
  have hu0 : 0 < f.u := by unfold Fmt.u; positivity
  have hu1 : f.u < 1 := by
    unfold Fmt.u
    rw [div_lt_one (by positivity)]
    exact one_lt_pow₀ (by norm_num) (by omega)
  have hpos : 0 < 1 + f.u := by linarith
  have hexp : expo (1 + f.u) = 0 := by
    obtain ⟨h1, h2⟩ := expo_spec hpos.ne'
    rw [abs_of_pos hpos] at h1 h2
    have a1 : (0 : ℤ) < expo (1 + f.u) + 1 := by
      refine (zpow_lt_zpow_iff_right₀ (by norm_num : (1 : ℚ) < 2)).1 (lt_of_le_of_lt ?_ h2)
      rw [zpow_zero]; linarith
    have a2 : expo (1 + f.u) < 1 := by
      refine (zpow_lt_zpow_iff_right₀ (by norm_num : (1 : ℚ) < 2)).1 (lt_of_le_of_lt h1 ?_)
      rw [zpow_one]; linarith
    omega
  unfold Fmt.rnd
  rw [if_neg hpos.ne', hexp, max_eq_left (by have := hf.low; omega)]
  simp only [sub_zero, zpow_natCast]
  have h7 : (1 + f.u) * (2 : ℚ) ^ f.frac = ((2 ^ f.frac : ℤ) : ℚ) + 1 / 2 := by
    unfold Fmt.u
    push_cast; rw [pow_succ]; field_simp
  rw [h7, nearestEven_tie, if_pos]
  · push_cast; rw [div_self (by positivity)]
  · obtain ⟨k, hk⟩ : ∃ k, f.frac = k + 1 := ⟨f.frac - 1, by omega⟩
    rw [hk, pow_succ]; omega

set_option maxHeartbeats 1000000 in
/-- C116: the Bartlett window: every sample is within `4u` of the textbook triangle and at most 1. -/
theorem C116_bartlett_partial (hf : StdFmt f) (he : (f.frac : ℤ) + 1 < f.emax) (hfr : 1 ≤ f.frac) (pi : IFl f)
    (cos exp sqrt bessel : IFl f → IFl f) (m : ℕ) (h2 : 2 ≤ m) (hm : m ≤ 2 ^ (f.frac + 1)) :
    ∃ r, bartlettK (ieeeOps f pi cos exp sqrt bessel) .symmetric m = .ok r ∧ r.length = m ∧
      ∀ i (hi : i < r.length), ∃ v : ℚ, r[i] = IFl.fin v ∧ v ≤ 1 ∧ |(v : ℝ) - Spec.bartlett m i| ≤ 4 * (f.u : ℝ) := by
  have hu0 : 0 < f.u := by unfold Fmt.u; positivity
  have hu4 : f.u ≤ 1 / 4 := by
    unfold Fmt.u
    rw [div_le_div_iff₀ (by positivity) (by norm_num), one_mul, one_mul]
    calc (4 : ℚ) = 2 ^ (1 + 1) := by norm_num
      _ ≤ _ := pow_le_pow_right₀ (by norm_num) (by omega)
  have h4 : (4 : ℤ) ≤ 2 ^ (f.frac + 1) := by
    calc (4 : ℤ) = 2 ^ (1 + 1) := by norm_num
      _ ≤ _ := pow_le_pow_right₀ (by norm_num) (by omega)
  have hm2 : (2 : ℚ) ≤ m := by exact_mod_cast h2
  have im2 : (CppNum.ofInt (-2) : IFl f) = IFl.fin (-2) := by
    have := ofInt_ieee hf he (-2) (by rw [abs_neg, abs_of_pos] <;> omega); exact_mod_cast this
  have i2 : (CppNum.ofInt 2 : IFl f) = IFl.fin 2 := by
    have := ofInt_ieee hf he 2 (by rw [abs_of_pos] <;> omega); exact_mod_cast this
  have r2 : f.rnd 2 = 2 := by have := rnd_int hf 2 (by rw [abs_of_pos] <;> omega); exact_mod_cast this
  have r2' : f.rnd (-2) = -2 := by rw [f.rnd_neg, r2]
  have b2 : |(2 : ℚ)| < (2 : ℚ) ^ f.emax := abs_lt_emax he (by
    rw [abs_two]
    have : ((4 : ℤ) : ℚ) ≤ ((2 ^ (f.frac + 1) : ℤ) : ℚ) := by exact_mod_cast h4
    push_cast at this; linarith)
  have b2' : |(-2 : ℚ)| < (2 : ℚ) ^ f.emax := by rw [abs_neg]; exact b2
  have hm1 : (1 : ℚ) ≤ (m : ℚ) - 1 := by linarith
  -- the scaling
  set q : ℚ := -2 / ((m : ℚ) - 1) with hq
  have hqabs : |q| = 2 / ((m : ℚ) - 1) := by rw [hq, abs_div, abs_neg, abs_two, abs_of_pos (by linarith)]
  obtain ⟨s1, s2, s3⟩ := ofQ_mem (f := f) (q := q) r2' r2 b2' b2
    (by rw [hq, le_div_iff₀ (by linarith)]; linarith) (by rw [hq, div_le_iff₀ (by linarith)]; linarith)
  have hnorm : (2 : ℚ) ^ f.emin ≤ |q| := by
    rw [hqabs, le_div_iff₀ (by linarith)]
    have h1 : (m : ℚ) - 1 ≤ (2 : ℚ) ^ ((f.frac : ℤ) + 1) := by
      have : (m : ℚ) ≤ ((2 ^ (f.frac + 1) : ℕ) : ℚ) := by exact_mod_cast hm
      rw [show (f.frac : ℤ) + 1 = ((f.frac + 1 : ℕ) : ℤ) by push_cast; ring, zpow_natCast]
      push_cast at this; linarith
    calc (2 : ℚ) ^ f.emin * ((m : ℚ) - 1) ≤ (2 : ℚ) ^ f.emin * (2 : ℚ) ^ ((f.frac : ℤ) + 1) :=
          mul_le_mul_of_nonneg_left h1 (by positivity)
      _ = (2 : ℚ) ^ (f.emin + f.frac + 1) := by rw [← zpow_add₀ two_ne_zero]; congr 1; ring
      _ ≤ (2 : ℚ) ^ (0 : ℤ) := zpow_le_zpow_right₀ (by norm_num) hf.low
      _ ≤ 2 := by rw [zpow_zero]; norm_num
  have herr := f.rnd_err_norm hnorm
  set σ := f.rnd q with hσ
  have hgσ : f.Grid σ := f.rnd_grid q
  refine ⟨_, symmetricFiller_eq _ _ _, by simp, ?_⟩
  intro i hi
  simp only [List.length_map, List.length_range, List.length_replicate] at hi
  simp only [List.length_replicate, List.getElem_map, List.getElem_range]
  set j := max i (m - 1 - i) with hj
  have hjm : j ≤ m - 1 := by omega
  have hj1 : m - 1 ≤ 2 * j := by omega
  have hjq : (j : ℚ) ≤ (m : ℚ) - 1 := by
    have : ((j : ℕ) : ℚ) ≤ ((m - 1 : ℕ) : ℚ) := by exact_mod_cast hjm
    rw [Nat.cast_sub (by omega)] at this; exact_mod_cast this
  have hjq1 : (m : ℚ) - 1 ≤ 2 * j := by
    have : ((m - 1 : ℕ) : ℚ) ≤ ((2 * j : ℕ) : ℚ) := by exact_mod_cast hj1
    rw [Nat.cast_sub (by omega)] at this; exact_mod_cast this
  set t : ℚ := 2 * j / ((m : ℚ) - 1) with ht
  have ht1 : 1 ≤ t := by rw [ht, le_div_iff₀ (by linarith)]; linarith
  have ht2 : t ≤ 2 := by rw [ht, div_le_iff₀ (by linarith)]; linarith
  have hqj : q * j = -t := by rw [hq, ht]; field_simp
  have hx : |σ * j + 2 - (2 - t)| ≤ f.u * t := by
    have : σ * j + 2 - (2 - t) = (σ - q) * j := by rw [sub_mul, hqj]; ring
    rw [this, abs_mul, Nat.abs_cast]
    calc |σ - q| * j ≤ f.u * |q| * j := mul_le_mul_of_nonneg_right herr (by positivity)
      _ = f.u * t := by rw [hqabs, ht]; field_simp
  rw [abs_le] at hx
  have hxu : σ * j + 2 ≤ 1 + f.u := by nlinarith
  have hg : f.Grid (σ * j + 2) := by
    obtain ⟨z, hz⟩ := hgσ
    have g2 := f.rnd_grid 2
    rw [r2] at g2
    refine Fmt.Grid.add ⟨z * j, ?_⟩ g2
    rw [hz]; push_cast; ring
  have hxe := f.rnd_err_grid hg
  obtain ⟨w1, w2, w3⟩ := ofQ_mem (f := f) (q := σ * j + 2) r2' r2 b2' b2 (by nlinarith) (by linarith)
  refine ⟨f.rnd (σ * j + 2), ?_, ?_, ?_⟩
  · simp only [ieeeOps]
    rw [im2, i2, sizeM1_ieee hf he m (by omega) hm, IFl.div_fin (by linarith), castK_ieee hf he j (by omega), s1,
      IFl.fma_fin, w1]
  · have := f.rnd_mono hxu
    rwa [rnd_one_tie hf hfr] at this
  · have hB : |f.rnd (σ * j + 2) - (2 - t)| ≤ 4 * f.u := by
      have hxa : |σ * j + 2| ≤ 1 + 2 * f.u := by rw [abs_le]; constructor <;> nlinarith
      have h3 : f.u * |σ * j + 2| ≤ f.u * (1 + 2 * f.u) := mul_le_mul_of_nonneg_left hxa hu0.le
      rw [abs_le] at hxe ⊢
      constructor <;> nlinarith
    have hspec : Spec.bartlett m i = ((2 - t : ℚ) : ℝ) := by
      unfold Spec.bartlett
      have hm1' : (1 : ℝ) ≤ (m : ℝ) - 1 := by exact_mod_cast hm1
      rw [ht]
      push_cast
      rcases le_total (m - 1 - i) i with h | h
      · have hji : j = i := by omega
        have : (1 : ℝ) ≤ 2 * (i : ℝ) / ((m : ℝ) - 1) := by rw [ht, hji] at ht1; exact_mod_cast ht1
        rw [hji, abs_of_nonneg (by linarith)]; ring
      · have hji : j = m - 1 - i := by omega
        have hji' : (j : ℝ) = (m : ℝ) - 1 - i := by
          rw [hji, Nat.cast_sub (by omega), Nat.cast_sub (by omega)]; push_cast; ring
        have ht1' : (1 : ℝ) ≤ 2 * (j : ℝ) / ((m : ℝ) - 1) := by rw [ht] at ht1; exact_mod_cast ht1
        have e : 2 * (i : ℝ) / ((m : ℝ) - 1) = 2 - 2 * (j : ℝ) / ((m : ℝ) - 1) := by
          rw [hji']; field_simp; ring
        rw [e, abs_of_nonpos (by linarith)]; ring
    rw [hspec, ← Rat.cast_sub, ← Rat.cast_abs]
    exact_mod_cast hB

/-- C116: the Bartlett window of `2^k + 1` points is the textbook triangle, exactly. -/
theorem C116_bartlett_exact (hf : StdFmt f) (he : (f.frac : ℤ) + 1 < f.emax) (hfr : 1 ≤ f.frac) (pi : IFl f)
    (cos exp sqrt bessel : IFl f → IFl f) (k : ℕ) (hk : k ≤ f.frac) :
    ∃ r, bartlettK (ieeeOps f pi cos exp sqrt bessel) .symmetric (2 ^ k + 1) = .ok r ∧ r.length = 2 ^ k + 1 ∧
      ∀ i (hi : i < r.length), ∃ v : ℚ, r[i] = IFl.fin v ∧ (v : ℝ) = Spec.bartlett (2 ^ k + 1) i := by
  have h4 : (4 : ℤ) ≤ 2 ^ (f.frac + 1) := by
    calc (4 : ℤ) = 2 ^ (1 + 1) := by norm_num
      _ ≤ _ := pow_le_pow_right₀ (by norm_num) (by omega)
  have hkp : 2 ^ k ≤ 2 ^ f.frac := Nat.pow_le_pow_right (by norm_num) hk
  have hfp : 2 ^ (f.frac + 1) = 2 * 2 ^ f.frac := by rw [pow_succ]; ring
  have hk1 : 1 ≤ 2 ^ k := Nat.one_le_two_pow
  have hf1 : 1 ≤ 2 ^ f.frac := Nat.one_le_two_pow
  have im2 : (CppNum.ofInt (-2) : IFl f) = IFl.fin (-2) := by
    have := ofInt_ieee hf he (-2) (by rw [abs_neg, abs_of_pos] <;> omega); exact_mod_cast this
  have i2 : (CppNum.ofInt 2 : IFl f) = IFl.fin 2 := by
    have := ofInt_ieee hf he 2 (by rw [abs_of_pos] <;> omega); exact_mod_cast this
  have hz : ∀ z : ℤ, |z| ≤ 2 ^ (f.frac + 1) → z ≤ 2 ^ (k + 1) → -2 ^ (k + 1) ≤ z →
      (IFl.ofQ ((z : ℚ) * (2 : ℚ) ^ (-(k : ℤ))) : IFl f) = IFl.fin ((z : ℚ) * (2 : ℚ) ^ (-(k : ℤ))) := by
    intro z h1 h2 h3
    refine ofQ_rep (f.rnd_exact z _ (by have := hf.low; omega) h1) ?_
    refine abs_lt_emax he ?_
    rw [abs_mul, abs_of_pos (a := (2 : ℚ) ^ (-(k : ℤ))) (by positivity)]
    have h4 : (|z| : ℚ) ≤ 2 ^ (f.frac + 1) := by exact_mod_cast h1
    have h5 : (2 : ℚ) ^ (-(k : ℤ)) ≤ 1 := by
      rw [← zpow_zero (2 : ℚ)]
      exact zpow_le_zpow_right₀ (by norm_num) (by omega)
    calc (|z| : ℚ) * (2 : ℚ) ^ (-(k : ℤ)) ≤ |(z : ℚ)| * 1 := mul_le_mul_of_nonneg_left h5 (abs_nonneg _)
      _ ≤ _ := by rw [mul_one]; exact h4
  have e2 : (IFl.fin (-2) / IFl.fin ((2 : ℚ) ^ k) : IFl f) = IFl.fin (-2 * (2 : ℚ) ^ (-(k : ℤ))) := by
    rw [IFl.div_fin (by positivity)]
    have := hz (-2) (by rw [abs_neg, abs_of_pos] <;> omega) (by rw [pow_succ]; have : (0 : ℤ) < 2 ^ k := by positivity
                                                                omega) (by
      rw [pow_succ]; have : (1 : ℤ) ≤ 2 ^ k := by exact_mod_cast hk1
      omega)
    rw [show (((-2 : ℤ)) : ℚ) = -2 by norm_num] at this
    rw [← this]
    congr 1
    rw [zpow_neg, zpow_natCast, div_eq_mul_inv]
  have hp : (2 : ℚ) ^ (-(k : ℤ)) * 2 ^ k = 1 := by rw [zpow_neg, zpow_natCast]; field_simp
  refine ⟨_, symmetricFiller_eq _ _ _, by simp, ?_⟩
  intro i hi
  simp only [List.length_map, List.length_range, List.length_replicate] at hi
  simp only [List.length_replicate, List.getElem_map, List.getElem_range]
  rw [show 2 ^ k + 1 - 1 - i = 2 ^ k - i by omega]
  set j := max i (2 ^ k - i) with hj
  have hjm : j ≤ 2 ^ k := by omega
  have hj1 : 2 ^ k ≤ 2 * j := by omega
  refine ⟨(2 * (2 ^ k - (j : ℤ)) : ℤ) * (2 : ℚ) ^ (-(k : ℤ)), ?_, ?_⟩
  · simp only [ieeeOps]
    rw [im2, i2, sizeM1_ieee hf he _ (by omega) (by omega), castK_ieee hf he j (by omega)]
    push_cast
    rw [add_sub_cancel_right, e2, IFl.fma_fin]
    have hjz : (j : ℤ) ≤ 2 ^ k := by exact_mod_cast hjm
    have hkz : (2 : ℤ) ^ k ≤ 2 ^ f.frac := by exact_mod_cast hkp
    have hfz : (2 : ℤ) ^ (f.frac + 1) = 2 * 2 ^ f.frac := by exact_mod_cast hfp
    have hj0 : (0 : ℤ) ≤ j := by omega
    have hk2 : (2 : ℤ) ^ (k + 1) = 2 * 2 ^ k := by rw [pow_succ]; ring
    have := hz (2 * (2 ^ k - (j : ℤ))) (by rw [abs_le]; constructor <;> omega) (by omega) (by omega)
    push_cast at this
    rw [← this]
    congr 1
    linear_combination (-2 : ℚ) * hp
  · unfold Spec.bartlett
    have hpr : (2 : ℝ) ^ (-(k : ℤ)) = 1 / 2 ^ k := by rw [zpow_neg, zpow_natCast, one_div]
    push_cast
    rw [hpr, add_sub_cancel_right]
    have h2k : (0 : ℝ) < 2 ^ k := by positivity
    rcases le_total (2 ^ k - i) i with h | h
    · have hji : j = i := by omega
      have : (2 : ℝ) ^ k ≤ 2 * (i : ℝ) := by rw [hji] at hj1; exact_mod_cast hj1
      rw [hji, abs_of_nonneg (by rw [sub_nonneg, le_div_iff₀ h2k]; linarith)]
      field_simp; ring
    · have hji : j = 2 ^ k - i := by omega
      have hji' : (j : ℝ) = (2 : ℝ) ^ k - i := by
        rw [hji, Nat.cast_sub (by omega)]; push_cast; ring
      have : 2 * (i : ℝ) ≤ (2 : ℝ) ^ k := by
        have : (2 : ℝ) ^ k ≤ 2 * (j : ℝ) := by exact_mod_cast hj1
        rw [hji'] at this; linarith
      rw [hji', abs_of_nonpos (by rw [sub_nonpos, div_le_iff₀ h2k]; linarith)]
      field_simp; ring

/-! ### Disagreements -/

/-- C116 fails as "windows are not negative": in `double`, the first and the last sample of `bartlett<double>(6)` are
`-2^-53`. -/
theorem C116_bartlett_negative (pi : D64) (cos exp sqrt bessel : D64 → D64) :
    ∃ r, bartlettK (ieeeOps binary64 pi cos exp sqrt bessel) .symmetric 6 = .ok r ∧
      r[0]? = some (IFl.fin (-(1 / 2 ^ 53))) ∧ r[5]? = some (IFl.fin (-(1 / 2 ^ 53))) := by
  refine ⟨_, symmetricFiller_eq _ _ _, ?_, ?_⟩
  · simp only [List.length_replicate]
    refine congrArg some ?_
    show (IFl.fma (CppNum.ofInt (-2) / sizeM1K 6) (castK 5) (CppNum.ofInt 2) : D64) = _
    decide +kernel
  · simp only [List.length_replicate]
    refine congrArg some ?_
    show (IFl.fma (CppNum.ofInt (-2) / sizeM1K 6) (castK 5) (CppNum.ofInt 2) : D64) = _
    decide +kernel

/-- C116: a Gaussian window with a standard deviation so small that `2σ²` underflows has a NaN in its centre instead of 1:
`gaussian<double>(5, 2^-540)`. -/
theorem C116_gaussian_nan (pi : D64) (cos exp sqrt bessel : D64 → D64) (h : exp IFl.nan = IFl.nan) :
    ∃ r, gaussianK (ieeeOps binary64 pi cos exp sqrt bessel) .symmetric 5 (IFl.fin (1 / 2 ^ 540)) = .ok r ∧
      r[2]? = some IFl.nan := by
  refine ⟨_, symmetricFiller_eq _ _ _, ?_⟩
  simp only [List.length_replicate]
  refine congrArg some ?_
  show exp ((CppNum.ofInt (-1) / (CppNum.ofInt 2 * IFl.fin (1 / 2 ^ 540) * IFl.fin (1 / 2 ^ 540))
      * (castK (Fl.toNat (castK 2 : D64)) - (castK 2 - CppNum.ofInt 0))
      * (castK (Fl.toNat (castK 2 : D64)) - (castK 2 - CppNum.ofInt 0)) : D64)) = IFl.nan
  rw [show ((CppNum.ofInt (-1) / (CppNum.ofInt 2 * IFl.fin (1 / 2 ^ 540) * IFl.fin (1 / 2 ^ 540))
      * (castK (Fl.toNat (castK 2 : D64)) - (castK 2 - CppNum.ofInt 0))
      * (castK (Fl.toNat (castK 2 : D64)) - (castK 2 - CppNum.ofInt 0)) : D64)) = IFl.nan by decide +kernel]
  exact h

/-- C116: a Kaiser window whose `I0(beta)` overflows (`beta` above about 713) has a NaN in its centre instead of 1. -/
theorem C116_kaiser_nan (pi : D64) (cos exp sqrt bessel : D64 → D64) (β : ℚ) (hβ : binary64.rnd |β| = |β|)
    (hb : |β| < (2 : ℚ) ^ (1024 : ℤ)) (h : bessel (IFl.fin |β|) = IFl.inf false) (hs : sqrt (IFl.fin 1) = IFl.fin 1) :
    ∃ r, kaiserK (ieeeOps binary64 pi cos exp sqrt bessel) .symmetric 5 (IFl.fin β) = .ok r ∧ r[2]? = some IFl.nan := by
  refine ⟨_, symmetricFiller_eq _ _ _, ?_⟩
  simp only [List.length_replicate]
  refine congrArg some ?_
  show bessel (IFl.fin |β| * sqrt (CppNum.ofInt 1 -
      (castK (Fl.toNat (castK 2 : D64)) - IFl.ofQ 0.5 * sizeM1K 5) / (IFl.ofQ 0.5 * sizeM1K 5) *
        ((castK (Fl.toNat (castK 2 : D64)) - IFl.ofQ 0.5 * sizeM1K 5) / (IFl.ofQ 0.5 * sizeM1K 5)))) /
      bessel (IFl.fin |β|) = (IFl.nan : D64)
  rw [show (CppNum.ofInt 1 -
      (castK (Fl.toNat (castK 2 : D64)) - IFl.ofQ 0.5 * sizeM1K 5) / (IFl.ofQ 0.5 * sizeM1K 5) *
        ((castK (Fl.toNat (castK 2 : D64)) - IFl.ofQ 0.5 * sizeM1K 5) / (IFl.ofQ 0.5 * sizeM1K 5)) : D64)
      = IFl.fin 1 by decide +kernel, hs, IFl.mul_fin, mul_one, ofQ_rep hβ (by rw [abs_abs]; exact hb), h]
  rfl

/-- `pi<double>`. -/
def piD64 : ℚ := 884279719003555 / 281474976710656

theorem cos_one_of_near (cos : D64 → D64) (hcos : ∀ x : ℚ, 1 - 1 / 2 ^ 54 ≤ Real.cos x → cos (IFl.fin x) = IFl.fin 1)
    (x : ℚ) (j : ℕ) (h : |x - 2 * piD64 * j| ≤ 1 / 2 ^ 40) (hj : j ≤ 2) : cos (IFl.fin x) = IFl.fin 1 := by
  refine hcos x ?_
  have h1 := Real.pi_gt_d20
  have h2 := Real.pi_lt_d20
  have hR : |(x : ℝ) - 2 * (piD64 : ℝ) * j| ≤ 1 / 2 ^ 40 := by
    have : ((|x - 2 * piD64 * j| : ℚ) : ℝ) ≤ ((1 / 2 ^ 40 : ℚ) : ℝ) := by exact_mod_cast h
    push_cast at this; exact this
  have hp : |(piD64 : ℝ) - Real.pi| ≤ 1 / 2 ^ 41 := by
    unfold piD64; push_cast
    rw [abs_le]; constructor <;> norm_num at h1 h2 ⊢ <;> linarith
  have hj' : (j : ℝ) ≤ 2 := by exact_mod_cast hj
  have hj0 : (0 : ℝ) ≤ j := by positivity
  have hε : |(x : ℝ) - j * (2 * Real.pi)| ≤ 1 / 2 ^ 37 := by
    have e : (x : ℝ) - j * (2 * Real.pi) = (x - 2 * piD64 * j) + 2 * j * (piD64 - Real.pi) := by ring
    rw [e]
    refine (abs_add_le _ _).trans ?_
    rw [abs_mul, abs_of_nonneg (a := 2 * (j : ℝ)) (by positivity)]
    nlinarith [abs_nonneg ((piD64 : ℝ) - Real.pi)]
  have hc : Real.cos x = Real.cos (x - j * (2 * Real.pi)) := (Real.cos_sub_nat_mul_two_pi _ _).symm
  rw [hc]
  have h3 := Real.one_sub_sq_div_two_le_cos (x := (x : ℝ) - j * (2 * Real.pi))
  have h4 : ((x : ℝ) - j * (2 * Real.pi)) ^ 2 ≤ (1 / 2 ^ 37) ^ 2 := sq_le_sq' (by rw [abs_le] at hε; linarith) (by rw [abs_le] at hε; linarith)
  norm_num at h4 ⊢
  linarith

/-- C116: with a correctly rounded cosine, the first and the last sample of every Blackman window are `-2^-56`, a negative
number, in `double`. -/
theorem C116_blackman_negative (cos exp sqrt bessel : D64 → D64)
    (hcos : ∀ x : ℚ, 1 - 1 / 2 ^ 54 ≤ Real.cos x → cos (IFl.fin x) = IFl.fin 1) (m : ℕ) (h2 : 2 ≤ m) (hm : m ≤ 2 ^ 52) :
    ∃ r, blackmanK (ieeeOps binary64 (IFl.fin piD64) cos exp sqrt bessel) .symmetric m = .ok r ∧ r.length = m ∧
      r[0]? = some (IFl.fin (-(1 / 2 ^ 56))) ∧ r[m - 1]? = some (IFl.fin (-(1 / 2 ^ 56))) := by
  have hf : StdFmt binary64 := ⟨by decide, by decide⟩
  have he : ((binary64.frac : ℤ)) + 1 < binary64.emax := by decide
  set n : ℕ := m - 1 with hn
  have hn1 : 1 ≤ n := by omega
  have hn2 : n ≤ 2 ^ 52 := by omega
  have hnq : (1 : ℚ) ≤ n := by exact_mod_cast hn1
  have hnq2 : (n : ℚ) ≤ 2 ^ 52 := by exact_mod_cast hn2
  have u64 : binary64.u = 1 / 2 ^ 53 := rfl
  -- the scaling
  have e2p : (CppNum.ofInt 2 * IFl.fin piD64 : D64) = IFl.fin (2 * piD64) := by decide +kernel
  have hsz : (sizeM1K m : D64) = IFl.fin n := by
    rw [sizeM1_ieee hf he m (by omega) (by show m ≤ 2 ^ (52 + 1); omega)]
    congr 1; rw [hn, Nat.cast_sub (by omega)]; simp
  have hpp : (3 : ℚ) < piD64 ∧ piD64 < 4 := by unfold piD64; constructor <;> norm_num
  have hemin : (2 : ℚ) ^ binary64.emin ≤ 1 / 2 ^ 60 := by
    show (2 : ℚ) ^ (-1022 : ℤ) ≤ 1 / 2 ^ 60
    rw [show (1 : ℚ) / 2 ^ 60 = (2 : ℚ) ^ (-60 : ℤ) by norm_num]
    exact zpow_le_zpow_right₀ (by norm_num) (by norm_num)
  have hsc0 : 0 < 2 * piD64 / n := by apply div_pos <;> linarith
  have hscn : (2 : ℚ) ^ binary64.emin ≤ |2 * piD64 / n| := by
    rw [abs_of_pos hsc0]
    refine hemin.trans ?_
    rw [div_le_div_iff₀ (by norm_num) (by linarith)]
    have : (2 : ℚ) ^ 52 ≤ 2 ^ 60 := by norm_num
    nlinarith
  have herr := binary64.rnd_err_norm hscn
  rw [abs_of_pos hsc0, u64] at herr
  have hbig : ∀ q : ℚ, |q| ≤ 2 ^ 53 → |q| < (2 : ℚ) ^ binary64.emax := fun q hq =>
    abs_lt_emax he (hq.trans (by show (2 : ℚ) ^ 53 ≤ 2 ^ (52 + 1); norm_num))
  have r53 : ∀ z : ℤ, |z| ≤ 2 ^ 53 → binary64.rnd z = z := fun z hz => rnd_int hf z (by show |z| ≤ 2 ^ (52 + 1); omega)
  have r64 : binary64.rnd 64 = 64 := by have := r53 64 (by norm_num); exact_mod_cast this
  obtain ⟨s1, s2, s3⟩ := ofQ_mem (f := binary64) (q := 2 * piD64 / n) (binary64.rnd_zero) r64 (hbig 0 (by norm_num))
    (hbig 64 (by norm_num [abs_of_pos])) hsc0.le (by rw [div_le_iff₀ (by linarith)]; linarith)
  set σ := binary64.rnd (2 * piD64 / n) with hσ
  -- the arguments of the cosines
  have arg : ∀ j : ℕ, j ≤ 2 → ∃ x : ℚ, (IFl.fin σ * castK (n * j) : D64) = IFl.fin x ∧ |x - 2 * piD64 * j| ≤ 1 / 2 ^ 40 := by
    intro j hj
    have hjq : (j : ℚ) ≤ 2 := by exact_mod_cast hj
    have hj0 : (0 : ℚ) ≤ j := by positivity
    have hnj : n * j ≤ 2 ^ 53 := by
      calc n * j ≤ 2 ^ 52 * 2 := Nat.mul_le_mul hn2 hj
        _ = _ := by norm_num
    have hprod : |σ * ((n * j : ℕ) : ℚ) - 2 * piD64 * j| ≤ 1 / 2 ^ 53 * (2 * piD64 * j) := by
      have e : σ * ((n * j : ℕ) : ℚ) - 2 * piD64 * j = (σ - 2 * piD64 / n) * (n * j) := by
        push_cast; field_simp
      rw [e, abs_mul, abs_of_nonneg (a := (n : ℚ) * j) (by positivity)]
      calc |σ - 2 * piD64 / n| * ((n : ℚ) * j) ≤ 1 / 2 ^ 53 * (2 * piD64 / n) * (n * j) :=
            mul_le_mul_of_nonneg_right herr (by positivity)
        _ = _ := by field_simp
    have hpj : 2 * piD64 * j ≤ 16 := by nlinarith
    have hpj0 : 0 ≤ 2 * piD64 * j := by nlinarith
    rw [abs_le] at hprod
    have hq0 : 0 ≤ σ * ((n * j : ℕ) : ℚ) := mul_nonneg s2 (by positivity)
    have hq64 : σ * ((n * j : ℕ) : ℚ) ≤ 32 := by norm_num at hprod ⊢; linarith
    obtain ⟨k1, k2, k3⟩ := ofQ_mem (f := binary64) (q := σ * ((n * j : ℕ) : ℚ)) binary64.rnd_zero r64 (hbig 0 (by norm_num))
      (hbig 64 (by norm_num [abs_of_pos])) hq0 (by linarith)
    refine ⟨_, by rw [castK_ieee hf he _ (by show n * j ≤ 2 ^ (52 + 1); omega), IFl.mul_fin, k1], ?_⟩
    have h1 := binary64.rnd_err (σ * ((n * j : ℕ) : ℚ))
    have h2 : binary64.eta ≤ 1 / 2 ^ 60 := by
      show (2 : ℚ) ^ (-1022 - 52 - 1 : ℤ) ≤ 1 / 2 ^ 60
      rw [show (1 : ℚ) / 2 ^ 60 = (2 : ℚ) ^ (-60 : ℤ) by norm_num]
      exact zpow_le_zpow_right₀ (by norm_num) (by norm_num)
    rw [abs_of_nonneg hq0, u64] at h1
    rw [abs_le] at h1 ⊢
    norm_num at h1 h2 hprod ⊢
    constructor <;> linarith
  have argc : ∀ j : ℕ, j ≤ 2 → cos (IFl.fin σ * castK (n * j) : D64) = IFl.fin 1 := by
    intro j hj
    obtain ⟨x, x1, x2⟩ := arg j hj
    rw [x1]
    exact cos_one_of_near cos hcos x j x2 hj
  have val : cosineLoopK (ieeeOps binary64 (IFl.fin piD64) cos exp sqrt bessel)
      (CppNum.ofInt 2 * (IFl.fin piD64 : D64) / sizeM1K m : D64) (Fl.toNat (castK n : D64))
      [binary64.ofRat 0.42, binary64.ofRat 0.50, binary64.ofRat 0.08] 0 (CppNum.ofInt (-1)) 0
      = IFl.fin (-(1 / 2 ^ 56)) := by
    rw [e2p, hsz, IFl.div_fin (by linarith), s1, castK_ieee hf he n (by show n ≤ 2 ^ (52 + 1); omega),
      show Fl.toNat (IFl.fin (n : ℚ) : D64) = n from toNat_fin n]
    simp only [cosineLoopK, ieeeOps]
    rw [argc 0 (by norm_num), argc (0 + 1) (by norm_num), argc (0 + 1 + 1) (by norm_num)]
    decide +kernel
  refine ⟨_, symmetricFiller_eq _ _ _, by simp, ?_, ?_⟩
  · simp only [List.length_replicate]
    rw [List.getElem?_map, List.getElem?_range (by omega), Option.map_some]
    rw [show max 0 (m - 1 - 0) = n by omega]
    exact congrArg some val
  · simp only [List.length_replicate]
    rw [List.getElem?_map, List.getElem?_range (by omega), Option.map_some]
    rw [show max n (m - 1 - n) = n by omega]
    exact congrArg some val

/-- C116: `blackman`, `nuttall`, `blackmanharris` and `flattop` exist for `double` only, and because of them so does
`get_window`, for every window. -/
theorem C116_element_types :
    (∀ k, winCompiles k .double = true) ∧ getWindowCompiles .double = true ∧
      ∀ T, T ≠ .double → getWindowCompiles T = false ∧
        ∀ k, winCompiles k T = false ↔ k = .blackman ∨ k = .nuttall ∨ k = .blackmanharris ∨ k = .flattop := by
  refine ⟨fun k => by cases k <;> rfl, by rfl, fun T hT => ⟨?_, fun k => ?_⟩⟩
  · cases T <;> first | rfl | exact absurd rfl hT
  · cases T <;> first | exact absurd rfl hT | (cases k <;> decide)

end ieee
section rounded
variable {rnd : ℚ → ℚ} {u : ℚ}

theorem cosineLoop_approx (hu : 0 ≤ u) (hr : ∀ x, |rnd x - x| ≤ u * |x|) (o : WinOps (RFl rnd)) (h1 : rnd 1 = 1)
    (hm1 : rnd (-1) = -1) (sc : RFl rnd) (i : ℕ) (C : ℕ → ℚ) (a : List ℚ) :
    ∀ (j k : ℕ) (e0 A0 : ℚ) (tmp : RFl rnd), 2 ≤ k → Approx u k e0 A0 tmp →
      (∀ l, l < a.length → o.cos (sc * castK (i * (j + l))) = RFl.fin (C (j + l)) ∧ |C (j + l)| ≤ 1) →
      Approx u (k + a.length) (e0 + ∑ l ∈ Finset.range a.length, (-1) ^ (j + l) * a.getD l 0 * C (j + l))
        (A0 + (a.map fun x => |x|).sum)
        (cosineLoopK o sc i (a.map RFl.fin) j (RFl.fin ((-1) ^ (j + 1))) tmp) := by
  have hsgn : ∀ n : ℕ, rnd ((-1) ^ n) = (-1) ^ n := by
    intro n
    rcases neg_one_pow_eq_or ℚ n with h | h <;> rw [h] <;> assumption
  induction a with
  | nil => intro j k e0 A0 tmp hk h _; simpa [cosineLoopK] using h
  | cons c cs ih =>
    intro j k e0 A0 tmp hk h hC
    obtain ⟨c1, c2⟩ := hC 0 (by simp)
    rw [add_zero] at c1 c2
    have hs : (RFl.fin ((-1) ^ (j + 1)) * CppNum.ofInt (-1) : RFl rnd) = RFl.fin ((-1) ^ j) := by
      have : (CppNum.ofInt (-1) : RFl rnd) = RFl.fin (-1) := by
        show RFl.fin (rnd ((-1 : ℤ) : ℚ)) = _
        rw [show (((-1 : ℤ)) : ℚ) = -1 by norm_num, hm1]
      rw [this, RFl.mul_fin, pow_succ, mul_assoc, neg_one_mul, neg_neg, mul_one, hsgn]
    simp only [List.map_cons, cosineLoopK]
    rw [hs, c1]
    have ht : Approx u k ((-1) ^ j * c * C j) |c| (RFl.fin ((-1) ^ j) * RFl.fin c * RFl.fin (C j) : RFl rnd) := by
      have p1 := Approx.mul hu hr (Approx.exact (rnd := rnd) hu 0 ((-1) ^ j) 1 (by simp))
        (Approx.exact (rnd := rnd) hu 0 c |c| le_rfl)
      have p2 := Approx.mul hu hr p1 (Approx.exact (rnd := rnd) hu 0 (C j) 1 c2)
      exact p2.mono hu (by omega) (by simp)
    have hadd := Approx.add hu hr h ht
    have := ih (j + 1) (k + 1) _ _ _ (by omega) hadd (fun l hl => by
      have := hC (l + 1) (by simpa using hl)
      rw [show j + 1 + l = j + (l + 1) by omega]; exact this)
    rw [show (-1 : ℚ) ^ (j + 1 + 1) = (-1) ^ j by rw [pow_add, pow_succ]; ring] at this
    rw [show k + (c :: cs).length = k + 1 + cs.length by simp; omega]
    rw [List.length_cons, Finset.sum_range_succ', List.sum_cons]
    have e1 : (e0 + (∑ l ∈ Finset.range cs.length, (-1) ^ (j + (l + 1)) * (c :: cs).getD (l + 1) 0 * C (j + (l + 1)) +
        (-1) ^ (j + 0) * (c :: cs).getD 0 0 * C (j + 0)) : ℚ)
        = e0 + (-1) ^ j * c * C j + ∑ l ∈ Finset.range cs.length, (-1) ^ (j + 1 + l) * cs.getD l 0 * C (j + 1 + l) := by
      have h2 : ∀ l, (-1 : ℚ) ^ (j + (l + 1)) * (c :: cs).getD (l + 1) 0 * C (j + (l + 1))
          = (-1) ^ (j + 1 + l) * cs.getD l 0 * C (j + 1 + l) := fun l => by
        rw [show j + (l + 1) = j + 1 + l by omega, List.getD_cons_succ]
      rw [Finset.sum_congr rfl fun l _ => h2 l, List.getD_cons_zero, add_zero]
      ring
    rw [e1, ← add_assoc]
    exact this

set_option maxHeartbeats 1000000 in
/-- C116: cosine sum windows (Hann, Hamming, Blackman, Nuttall, Blackman-Harris, flat top and `general_cosine`) with `n`
weights `a`: every sample differs from the textbook sum by at most `((1+u)^(n+2) - 1)·Σ|a_j|` for the products and sums, plus
`Σ |a_j|·(ε + 2j(((1+u)^3 - 1)·|π'| + |π' - π|))` for the cosines, where `u` is the relative rounding error, `ε` the absolute
error of `std::cos` and `π'` the constant `pi<T>`. -/
theorem C116_cosine_error (hu : 0 ≤ u) (hr : ∀ x, |rnd x - x| ≤ u * |x|) (π' : ℚ) (ε : ℝ)
    (cos exp sqrt bessel : RFl rnd → RFl rnd)
    (hcos : ∀ x : ℚ, ∃ c : ℚ, cos (RFl.fin x) = RFl.fin c ∧ |c| ≤ 1 ∧ |(c : ℝ) - Real.cos x| ≤ ε) (a : List ℚ) (m : ℕ)
    (h2 : 2 ≤ m) (hint : ∀ z : ℤ, |z| ≤ m * a.length + m + 2 → rnd z = z) :
    ∃ r, generalCosineK (roundOps rnd (RFl.fin π') cos exp sqrt bessel) .symmetric m (a.map RFl.fin) = .ok r ∧
      r.length = m ∧ ∀ i (hi : i < r.length), ∃ v : ℚ, r[i] = RFl.fin v ∧
        |(v : ℝ) - Spec.generalCosine (a.map (fun x : ℚ => (x : ℝ))) m i| ≤
          ((1 + (u : ℝ)) ^ (a.length + 2) - 1) * (a.map fun x : ℚ => |(x : ℝ)|).sum +
          ∑ j ∈ Finset.range a.length, |((a.getD j 0 : ℚ) : ℝ)| *
            (ε + 2 * j * (((1 + (u : ℝ)) ^ 3 - 1) * |(π' : ℝ)| + |(π' : ℝ) - Real.pi|)) := by
  have hint' : ∀ z : ℤ, |z| ≤ m * a.length + m + 2 → (CppNum.ofInt z : RFl rnd) = RFl.fin z :=
    fun z hz => by rw [RFl.ofInt_def, hint z hz]
  have hmz : (2 : ℤ) ≤ m := by exact_mod_cast h2
  have hz0 : (0 : ℤ) ≤ m * a.length := by positivity
  have h1 : rnd 1 = 1 := by have := hint 1 (by rw [abs_one]; omega); exact_mod_cast this
  have hm1 : rnd (-1) = -1 := by have := hint (-1) (by rw [abs_neg, abs_one]; omega); exact_mod_cast this
  have hcast : ∀ n : ℕ, n ≤ m * a.length + m → (castK n : RFl rnd) = RFl.fin n := by
    intro n hn
    have := hint' n (by rw [Nat.abs_cast]; have : ((n : ℕ) : ℤ) ≤ ((m * a.length + m : ℕ) : ℤ) := by exact_mod_cast hn
                        push_cast at this; omega)
    unfold castK
    rw [this]; simp
  have hmq : (1 : ℚ) ≤ (m : ℚ) - 1 := by
    have : (2 : ℚ) ≤ m := by exact_mod_cast h2
    linarith
  have hmR : (1 : ℝ) ≤ (m : ℝ) - 1 := by exact_mod_cast hmq
  have hsz : (sizeM1K m : RFl rnd) = RFl.fin ((m : ℚ) - 1) := by
    unfold sizeM1K
    rw [if_neg (by omega), hcast (m - 1) (by omega), Nat.cast_sub (by omega), Nat.cast_one]
  have i2 : (CppNum.ofInt 2 : RFl rnd) = RFl.fin 2 := by
    have := hint' 2 (by rw [abs_of_pos] <;> omega); exact_mod_cast this
  have im1 : (CppNum.ofInt (-1) : RFl rnd) = RFl.fin (-1) := by
    have := hint' (-1) (by rw [abs_neg, abs_one]; omega); exact_mod_cast this
  obtain ⟨sc, hsc⟩ : ∃ sc : RFl rnd, sc = CppNum.ofInt 2 * RFl.fin π' / sizeM1K m := ⟨_, rfl⟩
  have asc : Approx u 2 (2 * π' / ((m : ℚ) - 1)) (2 * |π'| / ((m : ℚ) - 1)) sc := by
    rw [hsc, i2, hsz]
    exact Approx.div hu hr (by linarith) (Approx.mul hu hr (Approx.exact (rnd := rnd) hu 0 2 2 (by simp))
      (Approx.exact (rnd := rnd) hu 0 π' |π'| le_rfl))
  refine ⟨_, symmetricFiller_eq _ _ _, by simp, ?_⟩
  intro i hi
  simp only [List.length_map, List.length_range, List.length_replicate] at hi
  simp only [List.length_replicate, List.getElem_map, List.getElem_range]
  set p := max i (m - 1 - i) with hp
  have hpm : p ≤ m - 1 := by omega
  have hpq : (p : ℝ) ≤ (m : ℝ) - 1 := by
    have : ((p : ℕ) : ℝ) ≤ ((m - 1 : ℕ) : ℝ) := by exact_mod_cast hpm
    rw [Nat.cast_sub (by omega)] at this; exact_mod_cast this
  -- the arguments
  have harg : ∀ j, j < a.length → ∃ x : ℚ, sc * castK (p * j) = RFl.fin x ∧
      |(x : ℝ) - 2 * Real.pi * p * j / ((m : ℝ) - 1)| ≤
        2 * j * (((1 + (u : ℝ)) ^ 3 - 1) * |(π' : ℝ)| + |(π' : ℝ) - Real.pi|) := by
    intro j hj
    have hpj : p * j ≤ m * a.length + m := by
      have := Nat.mul_le_mul (show p ≤ m by omega) hj.le
      omega
    have hex : Approx u 0 ((p * j : ℕ) : ℚ) ((p * j : ℕ) : ℚ) (RFl.fin ((p * j : ℕ) : ℚ) : RFl rnd) :=
      Approx.exact hu 0 _ _ (by rw [Nat.abs_cast])
    obtain ⟨x, x1, x2, -⟩ := Approx.mul hu hr asc hex
    refine ⟨x, by rw [hcast _ hpj]; exact x1, ?_⟩
    have hxR : |(x : ℝ) - 2 * π' / ((m : ℝ) - 1) * ((p : ℝ) * j)| ≤
        ((1 + (u : ℝ)) ^ 3 - 1) * (2 * |(π' : ℝ)| / ((m : ℝ) - 1) * ((p : ℝ) * j)) := by
      exact_mod_cast x2
    have hMu : (0 : ℝ) ≤ (1 + (u : ℝ)) ^ 3 - 1 := by
      have : (0 : ℝ) ≤ u := by exact_mod_cast hu
      have := one_le_pow₀ (n := 3) (show (1 : ℝ) ≤ 1 + u by linarith)
      linarith
    have hratio : (p : ℝ) * j / ((m : ℝ) - 1) ≤ j := by
      rw [div_le_iff₀ (by linarith), mul_comm]
      exact mul_le_mul_of_nonneg_left hpq (by positivity)
    have hratio0 : (0 : ℝ) ≤ (p : ℝ) * j / ((m : ℝ) - 1) := div_nonneg (by positivity) (by linarith)
    set ρ : ℝ := (p : ℝ) * j / ((m : ℝ) - 1) with hρ
    have e1 : 2 * (π' : ℝ) / ((m : ℝ) - 1) * ((p : ℝ) * j) = 2 * π' * ρ := by rw [hρ]; ring
    have e2 : 2 * |(π' : ℝ)| / ((m : ℝ) - 1) * ((p : ℝ) * j) = 2 * |(π' : ℝ)| * ρ := by rw [hρ]; ring
    have e3 : 2 * Real.pi * p * j / ((m : ℝ) - 1) = 2 * Real.pi * ρ := by rw [hρ]; ring
    rw [e1, e2] at hxR
    rw [e3]
    have e4 : (x : ℝ) - 2 * Real.pi * ρ = (x - 2 * π' * ρ) + 2 * ρ * (π' - Real.pi) := by ring
    rw [e4]
    refine (abs_add_le _ _).trans ?_
    rw [abs_mul (2 * ρ), abs_of_nonneg (a := 2 * ρ) (by linarith)]
    have q1 : ((1 + (u : ℝ)) ^ 3 - 1) * (2 * |(π' : ℝ)| * ρ) ≤ ((1 + (u : ℝ)) ^ 3 - 1) * (2 * |(π' : ℝ)| * j) :=
      mul_le_mul_of_nonneg_left (mul_le_mul_of_nonneg_left hratio (by positivity)) hMu
    have q2 : 2 * ρ * |(π' : ℝ) - Real.pi| ≤ 2 * j * |(π' : ℝ) - Real.pi| :=
      mul_le_mul_of_nonneg_right (by linarith) (abs_nonneg _)
    linarith
  -- the cosines
  have hC : ∀ j, ∃ c : ℚ, j < a.length → cos (sc * castK (p * j)) = RFl.fin c ∧ |c| ≤ 1 ∧
      |(c : ℝ) - Real.cos (2 * Real.pi * p * j / ((m : ℝ) - 1))| ≤
        ε + 2 * j * (((1 + (u : ℝ)) ^ 3 - 1) * |(π' : ℝ)| + |(π' : ℝ) - Real.pi|) := by
    intro j
    by_cases hj : j < a.length
    · obtain ⟨x, x1, x2⟩ := harg j hj
      obtain ⟨c, c1, c2, c3⟩ := hcos x
      refine ⟨c, fun _ => ⟨by rw [x1]; exact c1, c2, ?_⟩⟩
      have := Real.abs_cos_sub_cos_le (x := (x : ℝ)) (y := 2 * Real.pi * p * j / ((m : ℝ) - 1))
      have e : (c : ℝ) - Real.cos (2 * Real.pi * p * j / ((m : ℝ) - 1)) = (c - Real.cos x) +
        (Real.cos x - Real.cos (2 * Real.pi * p * j / ((m : ℝ) - 1))) := by ring
      rw [e]
      refine (abs_add_le _ _).trans ?_
      linarith
    · exact ⟨0, fun h => absurd h hj⟩
  choose C hC using hC
  obtain ⟨v, v1, v2, -⟩ := cosineLoop_approx hu hr (roundOps rnd (RFl.fin π') cos exp sqrt bessel) h1 hm1 sc p C a 0 2 0 0 0
    le_rfl (Approx.exact (rnd := rnd) hu 2 0 0 (by simp)) (fun l hl => by
      rw [zero_add]; exact ⟨(hC l hl).1, (hC l hl).2.1⟩)
  refine ⟨v, ?_, ?_⟩
  · show cosineLoopK _ (CppNum.ofInt 2 * RFl.fin π' / sizeM1K m)
      (Fl.toNat (castK p : RFl rnd)) _ 0 (CppNum.ofInt (-1)) 0 = _
    rw [← hsc, hcast p (by omega), show Fl.toNat (RFl.fin (p : ℚ) : RFl rnd) = p from toNat_fin p, im1]
    rw [← v1]; norm_num
  · have hsym : Spec.generalCosine (a.map (fun x : ℚ => (x : ℝ))) m i
        = ∑ j ∈ Finset.range a.length, (-1) ^ j * ((a.getD j 0 : ℚ) : ℝ) * Real.cos (2 * Real.pi * p * j / ((m : ℝ) - 1)) := by
      unfold Spec.generalCosine
      rw [List.length_map]
      refine Finset.sum_congr rfl fun j _ => ?_
      have hgd : (a.map (fun x : ℚ => (x : ℝ))).getD j 0 = ((a.getD j 0 : ℚ) : ℝ) := by
        rw [show (0 : ℝ) = ((0 : ℚ) : ℝ) by norm_num, List.getD_map]
      rw [hgd]
      congr 1
      rcases le_total (m - 1 - i) i with h | h
      · rw [show p = i by omega]
      · have hpi : (p : ℝ) = (m : ℝ) - 1 - i := by
          rw [show p = m - 1 - i by omega, Nat.cast_sub (by omega), Nat.cast_sub (by omega)]; push_cast; ring
        have e : 2 * Real.pi * p * j / ((m : ℝ) - 1) = j * (2 * Real.pi) - 2 * Real.pi * i * j / ((m : ℝ) - 1) := by
          rw [hpi]; field_simp
        rw [e, Real.cos_nat_mul_two_pi_sub]
    rw [hsym]
    have hvR : |(v : ℝ) - ∑ j ∈ Finset.range a.length, (-1) ^ j * ((a.getD j 0 : ℚ) : ℝ) * (C j : ℝ)| ≤
        ((1 + (u : ℝ)) ^ (a.length + 2) - 1) * (a.map fun x : ℚ => |(x : ℝ)|).sum := by
      have e1 : (((a.map fun x => |x|).sum : ℚ) : ℝ) = (a.map fun x : ℚ => |(x : ℝ)|).sum := by
        clear * -
        induction a with
        | nil => simp
        | cons x xs ih => simp [ih]
      rw [← e1]
      simp only [zero_add] at v2
      rw [add_comm 2 a.length] at v2
      exact_mod_cast v2
    have hdiff : |(∑ j ∈ Finset.range a.length, (-1) ^ j * ((a.getD j 0 : ℚ) : ℝ) * (C j : ℝ)) -
        ∑ j ∈ Finset.range a.length, (-1) ^ j * ((a.getD j 0 : ℚ) : ℝ) * Real.cos (2 * Real.pi * p * j / ((m : ℝ) - 1))| ≤
        ∑ j ∈ Finset.range a.length, |((a.getD j 0 : ℚ) : ℝ)| *
            (ε + 2 * j * (((1 + (u : ℝ)) ^ 3 - 1) * |(π' : ℝ)| + |(π' : ℝ) - Real.pi|)) := by
      rw [← Finset.sum_sub_distrib]
      refine (Finset.abs_sum_le_sum_abs _ _).trans (Finset.sum_le_sum fun j hj => ?_)
      rw [← mul_sub, abs_mul, abs_mul, abs_pow, abs_neg, abs_one, one_pow, one_mul]
      exact mul_le_mul_of_nonneg_left (hC j (Finset.mem_range.1 hj)).2.2 (abs_nonneg _)
    have := abs_add_le _ _ |>.trans (add_le_add hvR hdiff)
    rwa [sub_add_sub_cancel] at this

/-- For every `ε > 0` there is a cosine with values in `[-1, 1]` and absolute error at most `ε`. -/
theorem exists_cos (ε : ℝ) (hε : 0 < ε) : ∃ cos : RFl rnd → RFl rnd,
    ∀ x : ℚ, ∃ c : ℚ, cos (RFl.fin x) = RFl.fin c ∧ |c| ≤ 1 ∧ |(c : ℝ) - Real.cos x| ≤ ε := by
  have h : ∀ x : ℚ, ∃ c : ℚ, |c| ≤ 1 ∧ |(c : ℝ) - Real.cos x| ≤ ε := by
    intro x
    obtain ⟨c, c1, c2⟩ := exists_rat_btwn (show Real.cos x - ε < Real.cos x by linarith)
    have l1 := Real.neg_one_le_cos (x : ℝ)
    have l2 := Real.cos_le_one (x : ℝ)
    have c3 : c ≤ 1 := by have : (c : ℝ) ≤ 1 := by linarith
                          exact_mod_cast this
    refine ⟨max c (-1), abs_le.2 ⟨le_max_right _ _, max_le c3 (by norm_num)⟩, ?_⟩
    push_cast
    rw [abs_le]
    constructor
    · linarith [le_max_left (c : ℝ) (-1)]
    · have : max (c : ℝ) (-1) ≤ Real.cos x := max_le c2.le l1
      linarith
  choose C hC using h
  refine ⟨fun v => match v with
    | Fl.fin x => RFl.fin (C x)
    | _ => RFl.nan, fun x => ⟨C x, rfl, hC x⟩⟩

end rounded

/-! ### The hypotheses are met -/

example : StdFmt binary64 ∧ StdFmt binary32 := ⟨⟨by decide, by decide⟩, ⟨by decide, by decide⟩⟩

/-- Hann windows of 5 points in `double` and in `float`. -/
example : (∃ r, hannK (ieeeOps binary64 (IFl.fin piD64) (fun _ => IFl.fin 1) id id id) .symmetric 5 = .ok r ∧
      r.length = 5 ∧ ∀ x ∈ r, ∃ v, x = IFl.fin v ∧ 0 ≤ v ∧ v ≤ 1) ∧
    ∃ r, hammingK (ieeeOps binary32 (IFl.fin 3) (fun _ => IFl.fin 1) id id id) .periodic 7 = .ok r ∧
      r.length = 7 ∧ ∀ x ∈ r, ∃ v, x = IFl.fin v ∧ 0.07 ≤ v ∧ v ≤ 1 :=
  ⟨C116_hann ⟨by decide, by decide⟩ (by decide) (by decide) piD64 (by unfold piD64; rw [abs_of_pos] <;> norm_num) _ _ _ _
      (fun _ => ⟨1, rfl, by norm_num⟩) rfl .symmetric 5 (by decide) (by decide) (by decide),
    C116_hamming ⟨by decide, by decide⟩ (by decide) (by decide) 3 (by rw [abs_of_pos] <;> norm_num) _ _ _ _
      (fun _ => ⟨1, rfl, by norm_num⟩) rfl .periodic 7 (by decide) (by decide) (by decide)⟩

/-- A Kaiser window of 9 points with `beta = 3`. -/
example : ∃ r, kaiserK (ieeeOps binary64 (IFl.fin 3) id id id (fun _ => IFl.fin 4)) .symmetric 9 (IFl.fin (-3)) = .ok r ∧
    r.length = 9 ∧ ∀ x ∈ r, ∃ v, x = IFl.fin v ∧ 0 ≤ v ∧ v ≤ 1 :=
  C116_kaiser ⟨by decide, by decide⟩ (by decide) _ _ _ _ _ (fun x h0 h1 => ⟨x, rfl, h0, h1⟩) (-3) 4
    ⟨by decide +kernel, by decide +kernel⟩ rfl (fun _ _ _ => ⟨4, rfl, by norm_num, by norm_num⟩) .symmetric 9 (by decide)
    (by decide) (by decide)

/-- A Gaussian window of 9 points with `sigma = 1/2`: `-1/(2σ²) = -2`. -/
example : ∃ r, gaussianK (ieeeOps binary64 (IFl.fin 3) id (fun _ => IFl.fin 1) id id) .symmetric 9 (IFl.fin (1 / 2)) = .ok r ∧
    r.length = 9 ∧ ∀ x ∈ r, ∃ v, x = IFl.fin v ∧ 0 ≤ v ∧ v ≤ 1 :=
  C116_gaussian ⟨by decide, by decide⟩ (by decide) _ _ _ _ _ (fun _ _ => ⟨1, rfl, by norm_num, by norm_num⟩) _ (-2)
    (by norm_num) (by decide +kernel) .symmetric 9 (by decide)

example (pi : D32) (cos exp sqrt bessel : D32 → D32) : ∃ r, parzenK (ieeeOps binary32 pi cos exp sqrt bessel) .periodic 100
    = .ok r ∧ r.length = 100 ∧ ∀ x ∈ r, ∃ v, x = IFl.fin v ∧ 0 ≤ v ∧ v ≤ 1 :=
  C116_parzen ⟨by decide, by decide⟩ (by decide) (by decide) pi cos exp sqrt bessel .periodic 100 (by decide)

/-- The cosine of `C116_blackman_negative`. -/
example : ∃ cos : D64 → D64, ∀ x : ℚ, 1 - 1 / 2 ^ 54 ≤ Real.cos x → cos (IFl.fin x) = IFl.fin 1 := ⟨fun _ => IFl.fin 1, fun _ _ => rfl⟩

/-- The error bound for a Blackman window of 1000 points. -/
example : ∃ cos : F64 → F64, ∃ r, generalCosineK (roundOps rnd64 (RFl.fin piD64) cos id id id) .symmetric 1000
    (([rnd64 0.42, rnd64 0.5, rnd64 0.08] : List ℚ).map RFl.fin) = .ok r ∧ r.length = 1000 := by
  obtain ⟨cos, hcos⟩ := exists_cos (rnd := rnd64) (1 / 2 ^ 54) (by norm_num)
  obtain ⟨r, h1, h2, -⟩ := C116_cosine_error (u := 1 / 2 ^ 53) (by norm_num) (fun x => rnd64_err x) piD64 (1 / 2 ^ 54)
    cos id id id hcos [rnd64 0.42, rnd64 0.5, rnd64 0.08] 1000 (by norm_num) (fun z hz => rnd64_intCast z (by
      have : |z| ≤ 4002 := by simpa using hz
      omega))
  exact ⟨cos, r, h1, h2⟩

end SciCpp
