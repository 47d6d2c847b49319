import Verif.Model.SpectralF
import Verif.Proofs.Spectral
import Verif.Proofs.Rel
import Verif.Proofs.Approx
/-
  Lemmas about the floating point model of `Spectrum`.
-/
namespace SciCpp
open Finset

section lists
variable {A K : Type}

theorem addLists_range [Add A] (n : ℕ) (a b : ℕ → A) :
    addLists ((List.range n).map a) ((List.range n).map b) = .ok ((List.range n).map fun k => a k + b k) := by
  unfold addLists
  simp only [List.length_map, beq_self_eq_true, require_true, Res.bind_ok, Res.pure_eq]
  rw [zip_map_range]

theorem accumulateK_ok [Add A] (nfft : ℕ) (f : ℤ → Res (List A)) (g : ℕ → ℕ → A) (ord : List ℕ)
    (hf : ∀ i ∈ ord, f (i : ℤ) = .ok ((List.range nfft).map (g i))) (r : ℕ → A) :
    accumulateK f ord ((List.range nfft).map r) =
      .ok ((List.range nfft).map fun k => ord.foldl (fun acc i => acc + g i k) (r k)) := by
  induction ord generalizing r with
  | nil => rfl
  | cons i ord ih =>
    unfold accumulateK
    rw [hf i (by simp)]
    simp only [Res.bind_ok]
    rw [addLists_range]
    simp only [Res.bind_ok]
    rw [ih (fun j hj => hf j (by simp [hj]))]
    rfl

theorem computeSpectrumK_ok [CppNum K] [Add A] [Zero A] (divR : A → K → A) (nfft : ℕ) (nseg : ℤ) (ord : List ℕ)
    (f : ℤ → Res (List A)) (g : ℕ → ℕ → A) (hf : ∀ i ∈ ord, f (i : ℤ) = .ok ((List.range nfft).map (g i))) :
    computeSpectrumK divR nfft nseg ord f = .ok ((List.range nfft).map fun k =>
      divR (ord.foldl (fun acc i => acc + g i k) 0) (CppNum.ofInt nseg)) := by
  unfold computeSpectrumK
  rw [show List.replicate nfft (0 : A) = (List.range nfft).map (fun _ => 0) by simp, accumulateK_ok nfft f g ord hf]
  simp [List.map_map, Function.comp_def]

theorem foldSidesK_ok [CppNum K] (mulR : A → K → A) (half : K) (c : SpecCfgK K) (np : ℕ) (h1 : 1 ≤ np) (hc : c.nperseg = np)
    (f : ℕ → A) :
    foldSidesK mulR half c ((List.range (np / 2 + 1)).map f) = .ok ((List.range (np / 2 + 1)).map fun k =>
      if k = 0 ∨ 2 * k = np then mulR (mulR (f k) (CppNum.ofInt 2)) half else mulR (f k) (CppNum.ofInt 2)) := by
  unfold foldSidesK
  rw [List.map_map, hc]
  have h0 : rd ((List.range (np / 2 + 1)).map ((fun e => mulR e (CppNum.ofInt 2)) ∘ f)) (0 : ℤ)
      = .ok (mulR (f 0) (CppNum.ofInt 2)) := by
    rw [show (0 : ℤ) = ((0 : ℕ) : ℤ) by rfl, rd_nat _ _ (by simp)]
    simp
  simp only [h0, Res.bind_ok]
  rw [show (0 : ℤ) = ((0 : ℕ) : ℤ) by rfl, wr_nat _ _ _ (by simp), set_map_range]
  simp only [Res.bind_ok, List.length_map, List.length_range]
  by_cases he : np % 2 = 0
  · rw [if_pos (by exact_mod_cast he)]
    rw [show (((np / 2 + 1 : ℕ) : ℤ) - 1) = ((np / 2 : ℕ) : ℤ) by push_cast; ring, rd_nat _ _ (by simp)]
    simp only [Res.bind_ok]
    rw [wr_nat _ _ _ (by simp), set_map_range]
    congr 1
    apply List.map_congr_left
    intro k hk
    have hk := List.mem_range.mp hk
    by_cases h1 : k = np / 2
    · rw [if_pos h1, if_pos (.inr (by omega))]
      simp only [List.getElem_map, List.getElem_range]
      rw [if_neg (by omega), h1]
      rfl
    · rw [if_neg h1]
      by_cases h3 : k = 0
      · rw [if_pos h3, if_pos (.inl h3), h3]
      · rw [if_neg h3, if_neg (by omega)]; rfl
  · rw [if_neg (by exact_mod_cast he)]
    simp only [Res.pure_eq]
    congr 1
    apply List.map_congr_left
    intro k hk
    have hk := List.mem_range.mp hk
    by_cases h3 : k = 0
    · rw [if_pos h3, if_pos (.inl h3), h3]
    · rw [if_neg h3, if_neg (by omega)]; rfl

end lists

/-! ### Sums of non-negative numbers have small relative errors -/

section rel
variable {rnd : ℚ → ℚ} {u : ℚ}

theorem Rel.add (hu : 0 ≤ u) (hu1 : u < 1) (hr : ∀ x, |rnd x - x| ≤ u * |x|) {k : ℕ} {e f : ℚ} (he : 0 ≤ e) (hf : 0 ≤ f)
    {x y : RFl rnd} (hx : Rel u k e x) (hy : Rel u k f y) : Rel u (k + 1) (e + f) (x + y) := by
  obtain ⟨θ, rfl, e1, e2⟩ := hx
  obtain ⟨η, rfl, f1, f2⟩ := hy
  rw [RFl.add_fin]
  have p : 0 < 1 - u := by linarith
  have pk : 0 < (1 - u) ^ k := pow_pos p k
  have pk1 : (1 - u) ^ k ≤ 1 := pow_le_one₀ p.le (by linarith)
  by_cases h : e + f = 0
  · have h1 : e = 0 := by linarith
    have h2 : f = 0 := by linarith
    subst h1 h2
    have := Rel.round hu1 hr (rnd := rnd) (e := 0) (k := k) (θ := 1) pk1 (by linarith)
    simpa using this
  · have hpos : 0 < e + f := lt_of_le_of_ne (by linarith) (Ne.symm h)
    rw [show e * θ + f * η = (e + f) * ((e * θ + f * η) / (e + f)) by field_simp]
    refine Rel.round hu1 hr ?_ ?_
    · rw [le_div_iff₀ hpos]; nlinarith
    · rw [div_mul_eq_mul_div, div_le_one hpos]; nlinarith

theorem Rel.foldl_add (hu : 0 ≤ u) (hu1 : u < 1) (hr : ∀ x, |rnd x - x| ≤ u * |x|) {ι : Type*} (l : List ι)
    (v : ι → RFl rnd) (e : ι → ℚ) (k : ℕ) (h : ∀ i ∈ l, 0 ≤ e i ∧ Rel u k (e i) (v i)) (a : RFl rnd) (e0 : ℚ) (h0 : 0 ≤ e0)
    (ha : Rel u k e0 a) : Rel u (k + l.length) (e0 + (l.map e).sum) (l.foldl (fun acc i => acc + v i) a) := by
  induction l generalizing a e0 k with
  | nil => simpa using ha
  | cons i l ih =>
    obtain ⟨h1, h2⟩ := h i (by simp)
    have := ih (k + 1) (fun j hj => ⟨(h j (by simp [hj])).1, ((h j (by simp [hj])).2).mono hu hu1 (by omega)⟩) (a + v i) (e0 + e i)
      (by linarith) (Rel.add hu hu1 hr h0 h1 ha h2)
    rw [List.foldl_cons, List.map_cons, List.sum_cons, List.length_cons, ← add_assoc e0]
    rw [show k + (l.length + 1) = k + 1 + l.length by omega]
    exact this

/-! ### Absolute errors in the same unit -/

/-- `x` is within `(1/(1-u)^k - 1)·A` of `e`, and `|e| ≤ A`. -/
def Dev (u : ℚ) (k : ℕ) (e A : ℚ) (x : RFl rnd) : Prop :=
  ∃ q, x = RFl.fin q ∧ |q - e| ≤ (1 / (1 - u) ^ k - 1) * A ∧ |e| ≤ A

theorem ratio_ge (hu : 0 ≤ u) (hu1 : u < 1) (k : ℕ) : (1 : ℚ) ≤ 1 / (1 - u) ^ k := by
  have p : 0 < 1 - u := by linarith
  rw [le_div_iff₀ (pow_pos p k), one_mul]
  exact pow_le_one₀ p.le (by linarith)

theorem ratio_add (k l : ℕ) : (1 : ℚ) / (1 - u) ^ (k + l) = 1 / (1 - u) ^ k * (1 / (1 - u) ^ l) := by
  rw [pow_add]; field_simp

theorem ratio_one (hu : 0 ≤ u) (hu1 : u < 1) : 1 + u ≤ 1 / (1 - u) ^ 1 := by
  have p : 0 < 1 - u := by linarith
  rw [pow_one, le_div_iff₀ p]; nlinarith

theorem ratio_mono (hu : 0 ≤ u) (hu1 : u < 1) {k l : ℕ} (h : k ≤ l) : (1 : ℚ) / (1 - u) ^ k ≤ 1 / (1 - u) ^ l := by
  have p : 0 < 1 - u := by linarith
  exact one_div_le_one_div_of_le (pow_pos p l) (pow_le_pow_of_le_one p.le (by linarith) h)

theorem Approx.dev (hu : 0 ≤ u) (hu1 : u < 1) {k : ℕ} {e A : ℚ} {x : RFl rnd} (h : Approx u k e A x) : Dev u k e A x := by
  have hA := h.nonneg
  obtain ⟨q, h1, h2, h3⟩ := h
  refine ⟨q, h1, h2.trans (mul_le_mul_of_nonneg_right ?_ hA), h3⟩
  have p : 0 < 1 - u := by linarith
  have : (1 + u) ^ k ≤ (1 / (1 - u)) ^ k :=
    pow_le_pow_left₀ (by linarith) (by have := ratio_one hu hu1; rwa [pow_one] at this) k
  rw [div_pow, one_pow] at this
  linarith

theorem Dev.nonneg {k : ℕ} {e A : ℚ} {x : RFl rnd} (h : Dev u k e A x) : 0 ≤ A := by
  obtain ⟨q, -, -, h⟩ := h; exact (abs_nonneg _).trans h

theorem Dev.mono (hu : 0 ≤ u) (hu1 : u < 1) {k l : ℕ} (hk : k ≤ l) {e A : ℚ} {x : RFl rnd} (h : Dev u k e A x) :
    Dev u l e A x := by
  have hA := h.nonneg
  obtain ⟨q, h1, h2, h3⟩ := h
  exact ⟨q, h1, h2.trans (mul_le_mul_of_nonneg_right (by linarith [ratio_mono hu hu1 hk]) hA), h3⟩

theorem Dev.divRel (hu : 0 ≤ u) (hu1 : u < 1) (hr : ∀ x, |rnd x - x| ≤ u * |x|) {k l : ℕ} {e A f : ℚ} (hf : f ≠ 0)
    {x y : RFl rnd} (hx : Dev u k e A x) (hy : Rel u l f y) : Dev u (k + l + 1) (e / f) (A / |f|) (x / y) := by
  have hA := hx.nonneg
  obtain ⟨q, rfl, h1, h2⟩ := hx
  obtain ⟨η, rfl, f1, f2⟩ := hy
  have p : 0 < 1 - u := by linarith
  have pl : 0 < (1 - u) ^ l := pow_pos p l
  have hη : 0 < η := lt_of_lt_of_le pl f1
  have hfp : 0 < |f| := abs_pos.2 hf
  rw [RFl.div_fin (mul_ne_zero hf hη.ne')]
  obtain ⟨θ, t0, t1, t2⟩ := rnd_factor hu1 hr (q / (f * η))
  have hθ : 0 < θ := lt_of_lt_of_le p t1
  refine ⟨_, rfl, ?_, by rw [abs_div]; exact div_le_div_of_nonneg_right h2 hfp.le⟩
  have hζ0 : 0 < θ / η := div_pos hθ hη
  have hζ : θ / η ≤ 1 / (1 - u) ^ (l + 1) := by
    rw [div_le_div_iff₀ hη (pow_pos p _), pow_succ]
    calc θ * ((1 - u) ^ l * (1 - u)) = (1 - u) ^ l * (θ * (1 - u)) := by ring
      _ ≤ η * 1 := mul_le_mul f1 t2 (mul_pos hθ p).le hη.le
      _ = 1 * η := by ring
  have hζ' : (1 - u) ^ (l + 1) ≤ θ / η := by
    rw [le_div_iff₀ hη, pow_succ]
    calc (1 - u) ^ l * (1 - u) * η = (η * (1 - u) ^ l) * (1 - u) := by ring
      _ ≤ 1 * θ := mul_le_mul f2 t1 p.le zero_le_one
      _ = θ := one_mul _
  have hz : |θ / η - 1| ≤ 1 / (1 - u) ^ (l + 1) - 1 := by
    have h3 : 1 / (1 - u) ^ (l + 1) + (1 - u) ^ (l + 1) ≥ 2 := by
      have hp : 0 < (1 - u) ^ (l + 1) := pow_pos p _
      have : 1 / (1 - u) ^ (l + 1) + (1 - u) ^ (l + 1) - 2 = (1 - (1 - u) ^ (l + 1)) ^ 2 / (1 - u) ^ (l + 1) := by
        field_simp; ring
      have h4 : 0 ≤ (1 - (1 - u) ^ (l + 1)) ^ 2 / (1 - u) ^ (l + 1) := by positivity
      linarith
    rw [abs_le]; constructor <;> linarith
  rw [t0, show q / (f * η) * θ - e / f = ((q - e) * (θ / η) + e * (θ / η - 1)) / f by field_simp; ring, abs_div,
    show (1 / (1 - u) ^ (k + l + 1) - 1) * (A / |f|) = (1 / (1 - u) ^ (k + l + 1) - 1) * A / |f| by ring]
  refine div_le_div_of_nonneg_right ?_ hfp.le
  have g0 := ratio_ge hu hu1 k
  calc |(q - e) * (θ / η) + e * (θ / η - 1)|
      ≤ |q - e| * |θ / η| + |e| * |θ / η - 1| := by rw [← abs_mul, ← abs_mul]; exact abs_add_le _ _
    _ ≤ ((1 / (1 - u) ^ k - 1) * A) * (1 / (1 - u) ^ (l + 1)) + A * (1 / (1 - u) ^ (l + 1) - 1) := by
        rw [abs_of_pos hζ0]
        exact add_le_add (mul_le_mul h1 hζ hζ0.le (mul_nonneg (by linarith) hA)) (mul_le_mul h2 hz (abs_nonneg _) hA)
    _ = (1 / (1 - u) ^ (k + l + 1) - 1) * A := by
        rw [add_assoc, ratio_add k (l + 1)]; ring

theorem prod_approx (hu : 0 ≤ u) (hr : ∀ x, |rnd x - x| ≤ u * |x|) (a c A C : ℚ) (ha : |a| ≤ A) (hc : |c| ≤ C) :
    Approx u 1 (a * c) (A * C) ((RFl.fin a : RFl rnd) * RFl.fin c) := by
  have h1 : Approx u 0 a A (RFl.fin a : RFl rnd) := Approx.exact hu 0 a A ha
  have h2 : Approx u 0 c C (RFl.fin c : RFl rnd) := Approx.exact hu 0 c C hc
  have := Approx.mul hu hr h1 h2
  exact this

theorem cross_approx_sub (hu : 0 ≤ u) (hr : ∀ x, |rnd x - x| ≤ u * |x|) (a b c d A B C D e : ℚ) (ha : |a| ≤ A) (hb : |b| ≤ B)
    (hc : |c| ≤ C) (hd : |d| ≤ D) (he : e = a * c - b * d) :
    Approx u 2 e (A * C + B * D) ((RFl.fin a : RFl rnd) * RFl.fin c - RFl.fin b * RFl.fin d) := by
  rw [he]
  exact Approx.sub hu hr (prod_approx hu hr a c A C ha hc) (prod_approx hu hr b d B D hb hd)

theorem cross_approx_add (hu : 0 ≤ u) (hr : ∀ x, |rnd x - x| ≤ u * |x|) (a b c d A B C D e : ℚ) (ha : |a| ≤ A) (hb : |b| ≤ B)
    (hc : |c| ≤ C) (hd : |d| ≤ D) (he : e = a * c + b * d) :
    Approx u 2 e (A * C + B * D) ((RFl.fin a : RFl rnd) * RFl.fin c + RFl.fin b * RFl.fin d) := by
  rw [he]
  exact Approx.add hu hr (prod_approx hu hr a c A C ha hc) (prod_approx hu hr b d B D hb hd)

theorem cross_re_approx (hu : 0 ≤ u) (hr : ∀ x, |rnd x - x| ≤ u * |x|) (a b c d : ℚ) :
    Approx u 2 (a * c + b * d) (|a| * |c| + |b| * |d|)
      ((RFl.fin a : RFl rnd) * RFl.fin c - RFl.fin (-b) * RFl.fin d) :=
  cross_approx_sub hu hr a (-b) c d |a| |b| |c| |d| _ (le_refl _) (abs_neg b).le (le_refl _) (le_refl _) (by ring)

theorem cross_im_approx (hu : 0 ≤ u) (hr : ∀ x, |rnd x - x| ≤ u * |x|) (a b c d : ℚ) :
    Approx u 2 (a * d - b * c) (|a| * |d| + |b| * |c|)
      ((RFl.fin a : RFl rnd) * RFl.fin d + RFl.fin (-b) * RFl.fin c) :=
  cross_approx_add hu hr a (-b) d c |a| |b| |d| |c| _ (le_refl _) (abs_neg b).le (le_refl _) (le_refl _) (by ring)

theorem Rel.dev (hu1 : u < 1) {k : ℕ} {e : ℚ} {x : RFl rnd} (h : Rel u k e x) : Dev u k e |e| x := by
  obtain ⟨q, h1, h2⟩ := h.err hu1
  exact ⟨q, h1, h2, le_rfl⟩

/-- A sum of two squares computed from two numbers with absolute errors. -/
theorem sq_dev (hu : 0 ≤ u) (hu1 : u < 1) {k : ℕ} {R I a b A B P : ℚ} (hP : 0 ≤ P) (hA : A ^ 2 ≤ P) (hB : B ^ 2 ≤ P)
    (hRI : R ^ 2 + I ^ 2 ≤ P) (ha : |a - R| ≤ (1 / (1 - u) ^ k - 1) * A) (hb : |b - I| ≤ (1 / (1 - u) ^ k - 1) * B)
    (hA0 : 0 ≤ A) (hB0 : 0 ≤ B) :
    abs (a ^ 2 + b ^ 2 - (R ^ 2 + I ^ 2)) ≤ (1 / (1 - u) ^ (3 * k) - 1) * P := by
  have hg := ratio_ge hu hu1 k
  obtain ⟨g, hgd⟩ : ∃ g, g = 1 / (1 - u) ^ k - 1 := ⟨_, rfl⟩
  rw [← hgd] at ha hb
  have hg0 : 0 ≤ g := by rw [hgd]; linarith
  have one : ∀ a R A : ℚ, |a - R| ≤ g * A → 0 ≤ A → abs (a ^ 2 - R ^ 2) ≤ g * (R ^ 2 + A ^ 2) + g ^ 2 * A ^ 2 := by
    intro a R A h hA
    obtain ⟨h1, h2⟩ := abs_le.1 h
    have hab : |a + R| ≤ 2 * |R| + g * A := by
      calc |a + R| = |(a - R) + 2 * R| := by ring_nf
        _ ≤ |a - R| + |2 * R| := abs_add_le _ _
        _ ≤ g * A + 2 * |R| := by rw [abs_mul, abs_two]; linarith
        _ = _ := by ring
    calc abs (a ^ 2 - R ^ 2) = |a - R| * |a + R| := by rw [← abs_mul]; ring_nf
      _ ≤ (g * A) * (2 * |R| + g * A) := mul_le_mul h hab (abs_nonneg _) (mul_nonneg hg0 hA)
      _ ≤ g * (R ^ 2 + A ^ 2) + g ^ 2 * A ^ 2 := by
          rw [← sq_abs R]
          nlinarith [mul_nonneg hg0 (sq_nonneg (|R| - A))]
  have e3 : (1 : ℚ) / (1 - u) ^ (3 * k) = (1 + g) ^ 3 := by
    rw [hgd, mul_comm, pow_mul]; ring
  rw [e3]
  calc abs (a ^ 2 + b ^ 2 - (R ^ 2 + I ^ 2)) = abs ((a ^ 2 - R ^ 2) + (b ^ 2 - I ^ 2)) := by ring_nf
    _ ≤ abs (a ^ 2 - R ^ 2) + abs (b ^ 2 - I ^ 2) := abs_add_le _ _
    _ ≤ (g * (R ^ 2 + A ^ 2) + g ^ 2 * A ^ 2) + (g * (I ^ 2 + B ^ 2) + g ^ 2 * B ^ 2) :=
        add_le_add (one a R A ha hA0) (one b I B hb hB0)
    _ ≤ (3 * g + 2 * g ^ 2) * P := by nlinarith [mul_nonneg hg0 hg0]
    _ ≤ ((1 + g) ^ 3 - 1) * P := by
        refine mul_le_mul_of_nonneg_right ?_ hP
        nlinarith [pow_nonneg hg0 3, pow_nonneg hg0 2]

/-- A value within `(1/(1-u)^k - 1)` of `e`, `0 ≤ e ≤ 1`, times `l` relative errors. -/
theorem dev_rel (hu : 0 ≤ u) (hu1 : u < 1) {k l : ℕ} {e x : ℚ} (he1 : e ≤ 1) (hx0 : 0 ≤ x)
    (hx : |x - e| ≤ 1 / (1 - u) ^ k - 1) {y : RFl rnd} (hy : Rel u l x y) :
    ∃ q, y = RFl.fin q ∧ 0 ≤ q ∧ |q - e| ≤ 1 / (1 - u) ^ (k + l) - 1 := by
  have hk := ratio_ge hu hu1 k
  have hl := ratio_ge hu hu1 l
  have hθ0 : ∃ q, y = RFl.fin q ∧ 0 ≤ q := by
    obtain ⟨θ, rfl, h1, _⟩ := hy
    have p : 0 < 1 - u := by linarith
    exact ⟨_, rfl, mul_nonneg hx0 ((pow_pos p l).le.trans h1)⟩
  obtain ⟨q', hq', hq0⟩ := hθ0
  obtain ⟨q, rfl, hq⟩ := hy.err hu1
  cases hq'
  refine ⟨_, rfl, hq0, ?_⟩
  rw [abs_of_nonneg hx0] at hq
  have hx2 : x ≤ 1 / (1 - u) ^ k := by linarith [(abs_le.1 hx).2]
  calc |q' - e| = |(q' - x) + (x - e)| := by ring_nf
    _ ≤ |q' - x| + |x - e| := abs_add_le _ _
    _ ≤ (1 / (1 - u) ^ l - 1) * (1 / (1 - u) ^ k) + (1 / (1 - u) ^ k - 1) :=
        add_le_add (hq.trans (mul_le_mul_of_nonneg_left hx2 (by linarith))) hx
    _ = _ := by rw [ratio_add]; ring

end rel

/-! ### Cauchy-Schwarz -/

theorem cross_sq_le (s : Finset ℕ) (a b c d : ℕ → ℚ) :
    (∑ i ∈ s, (a i * c i + b i * d i)) ^ 2 + (∑ i ∈ s, (a i * d i - b i * c i)) ^ 2 ≤
      (∑ i ∈ s, (a i ^ 2 + b i ^ 2)) * ∑ i ∈ s, (c i ^ 2 + d i ^ 2) := by
  set R := ∑ i ∈ s, (a i * c i + b i * d i) with hR
  set I := ∑ i ∈ s, (a i * d i - b i * c i) with hI
  have h := sum_sq_le_sum_mul_sum_of_sq_le_mul s
    (r := fun i => R * (a i * c i + b i * d i) + I * (a i * d i - b i * c i))
    (f := fun i => (R ^ 2 + I ^ 2) * (a i ^ 2 + b i ^ 2)) (g := fun i => c i ^ 2 + d i ^ 2)
    (fun i _ => by positivity) (fun i _ => by positivity)
    (fun i _ => by
      nlinarith [sq_nonneg (R * (a i * d i - b i * c i) - I * (a i * c i + b i * d i))])
  rw [sum_add_distrib, ← mul_sum, ← mul_sum, ← hR, ← hI, ← mul_sum] at h
  have h0 : 0 ≤ R ^ 2 + I ^ 2 := by positivity
  have h1 : 0 ≤ (∑ i ∈ s, (a i ^ 2 + b i ^ 2)) * ∑ i ∈ s, (c i ^ 2 + d i ^ 2) :=
    mul_nonneg (sum_nonneg fun i _ => by positivity) (sum_nonneg fun i _ => by positivity)
  by_cases hz : R ^ 2 + I ^ 2 = 0
  · rw [hz]; exact h1
  · have hp : 0 < R ^ 2 + I ^ 2 := lt_of_le_of_ne h0 (Ne.symm hz)
    have : (R ^ 2 + I ^ 2) * (R ^ 2 + I ^ 2) ≤
        (R ^ 2 + I ^ 2) * ((∑ i ∈ s, (a i ^ 2 + b i ^ 2)) * ∑ i ∈ s, (c i ^ 2 + d i ^ 2)) := by
      calc _ = (R * R + I * I) ^ 2 := by ring
        _ ≤ _ := h
        _ = _ := by ring
    exact le_of_mul_le_mul_left this hp

theorem cross_abs_sq_le (s : Finset ℕ) (a b c d : ℕ → ℚ) :
    (∑ i ∈ s, (|a i| * |c i| + |b i| * |d i|)) ^ 2 ≤
      (∑ i ∈ s, (a i ^ 2 + b i ^ 2)) * ∑ i ∈ s, (c i ^ 2 + d i ^ 2) := by
  refine sum_sq_le_sum_mul_sum_of_sq_le_mul s (fun i _ => by positivity) (fun i _ => by positivity) fun i _ => ?_
  rw [← sq_abs (a i), ← sq_abs (b i), ← sq_abs (c i), ← sq_abs (d i)]
  nlinarith [sq_nonneg (|a i| * |d i| - |b i| * |c i|)]

end SciCpp
