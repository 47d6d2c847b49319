import Verif.Proofs.FloatText
import Verif.Props.Io
/-
  Property theorems C97: what saving and loading does to floating point numbers.
-/
namespace SciCpp
open Spec

attribute [local irreducible] Fmt.ofRat
set_option exponentiation.threshold 2000

/-! ### Rounding in the normal range -/

theorem Fmt.rnd_err_normal (f : Fmt) {q : ℚ} (hq : (2 : ℚ) ^ f.emin ≤ |q|) :
    |f.rnd q - q| ≤ f.u * |q| := by
  have h : q ≠ 0 := by
    rintro rfl
    rw [abs_zero] at hq
    have : (0 : ℚ) < (2 : ℚ) ^ f.emin := by positivity
    linarith
  obtain ⟨h1, h2⟩ := expo_spec h
  have hle : f.emin ≤ expo q := by
    by_contra hc
    push Not at hc
    have : (2 : ℚ) ^ (expo q + 1) ≤ (2 : ℚ) ^ f.emin := zpow_le_zpow_right₀ (by norm_num) (by omega)
    linarith
  unfold Fmt.rnd
  rw [if_neg h]
  simp only
  set e := expo q
  set s : ℚ := (2 : ℚ) ^ ((f.frac : ℤ) - max e f.emin) with hsd
  have hs : 0 < s := by positivity
  have : (nearestEven (q * s) : ℚ) / s - q = ((nearestEven (q * s) : ℚ) - q * s) / s := by
    field_simp
  rw [this, abs_div, abs_of_pos hs, div_le_iff₀ hs]
  refine (nearestEven_err _).trans ?_
  have hse : s * 2 ^ e = 2 ^ f.frac := by
    rw [hsd, max_eq_left hle, ← zpow_add₀ two_ne_zero, sub_add_cancel, zpow_natCast]
  calc (1 : ℚ) / 2 = f.u * (s * 2 ^ e) := by
        rw [hse, Fmt.u, pow_succ]; field_simp
    _ ≤ f.u * (s * |q|) := by
      apply mul_le_mul_of_nonneg_left _ f.u_nonneg
      apply mul_le_mul_of_nonneg_left h1 hs.le
    _ = _ := by ring

/-- The largest six digit decimal not above the largest double. -/
theorem dec6_le_max (x : ℚ) (hx : |x| ≤ 2 ^ 1024 - 2 ^ 970) : |dec6 x| ≤ 179769 * 10 ^ 303 := by
  -- by symmetry for positive numbers
  have key : ∀ x d : ℚ, IsNearestDecimal 6 x d → x ≤ 2 ^ 1024 - 2 ^ 970 → d ≤ 179769 * 10 ^ 303 := by
    intro x d hd hx
    by_contra hc
    push Not at hc
    have hD : IsDecimal 6 (179769 * 10 ^ 303) := ⟨179769, 303, by norm_num, by norm_num⟩
    have hn := hd.2 _ hD
    obtain ⟨k, e, hk, rfl⟩ := hd.1
    -- the exponent is at least 303
    have he : 303 ≤ e := by
      by_contra he
      have h1 : (10 : ℚ) ^ e ≤ (10 : ℚ) ^ (302 : ℤ) := zpow_le_zpow_right₀ (by norm_num) (by omega)
      have h2 : (k : ℚ) ≤ 10 ^ 6 := by
        have := (le_abs_self k).trans hk.le
        exact_mod_cast this
      have h3 : (k : ℚ) * (10 : ℚ) ^ e ≤ 10 ^ 6 * (10 : ℚ) ^ (302 : ℤ) :=
        mul_le_mul h2 h1 (ten_zpow_pos e).le (by norm_num)
      have h4 : (10 : ℚ) ^ 6 * (10 : ℚ) ^ (302 : ℤ) < 179769 * 10 ^ 303 := by norm_num
      linarith
    obtain ⟨j, hj⟩ := Int.eq_ofNat_of_zero_le (show 0 ≤ e - 303 by omega)
    have hke : (k : ℚ) * (10 : ℚ) ^ e = ((k * 10 ^ j : ℤ) : ℚ) * 10 ^ 303 := by
      push_cast
      rw [mul_assoc, ← pow_add, ← zpow_natCast]
      congr 2; push_cast; omega
    rw [hke] at hc hn
    have hm : (179769 : ℚ) < ((k * 10 ^ j : ℤ) : ℚ) := lt_of_mul_lt_mul_right hc (by positivity)
    have hm' : 179770 ≤ k * 10 ^ j := by
      have : (179769 : ℤ) < k * 10 ^ j := by exact_mod_cast hm
      omega
    have hm'' : (179770 : ℚ) ≤ ((k * 10 ^ j : ℤ) : ℚ) := by exact_mod_cast hm'
    generalize ((k * 10 ^ j : ℤ) : ℚ) = m at *
    have hbig : (179770 : ℚ) * 10 ^ 303 ≤ m * 10 ^ 303 := mul_le_mul_of_nonneg_right hm'' (by positivity)
    have hmax : (2 : ℚ) ^ 1024 - 2 ^ 970 < (179769 + 1 / 2) * 10 ^ 303 := by norm_num
    rw [abs_sub_comm, abs_of_nonneg (by linarith)] at hn
    rcases abs_cases (x - 179769 * 10 ^ 303) with ⟨h, _⟩ | ⟨h, _⟩
    · rw [h] at hn; linarith
    · rw [h] at hn; linarith
  rw [abs_le] at hx ⊢
  constructor
  · have := key (-x) (-dec6 x) (nearest_neg (dec6_nearest x)) (by linarith)
    linarith
  · exact key x (dec6 x) (dec6_nearest x) hx.2

/-- The largest decimal of `dec6_le_max` is rounded to a finite double. -/
theorem rnd_dec6_lt (x : ℚ) (hx : |x| ≤ 2 ^ 1024 - 2 ^ 970) :
    |binary64.rnd (dec6 x)| < (2 : ℚ) ^ binary64.emax := by
  have h1 := dec6_le_max x hx
  have h2 := binary64.rnd_err (dec6 x)
  have hu : binary64.u = 1 / 2 ^ 53 := rfl
  have he : binary64.eta ≤ 1 := by
    show (2 : ℚ) ^ (-1075 : ℤ) ≤ 1
    exact zpow_le_one_of_nonpos₀ (by norm_num) (by norm_num)
  have h3 : |binary64.rnd (dec6 x)| ≤ |binary64.rnd (dec6 x) - dec6 x| + |dec6 x| := by
    have := abs_add_le (binary64.rnd (dec6 x) - dec6 x) (dec6 x)
    rwa [sub_add_cancel] at this
  have h4 : (1 / 2 ^ 53 * (179769 * 10 ^ 303) + 1 + 179769 * 10 ^ 303 : ℚ) < 2 ^ 1024 := by norm_num
  have h5 : (2 : ℚ) ^ binary64.emax = 2 ^ 1024 := zpow_natCast 2 1024
  rw [h5]
  rw [hu] at h2
  have h6 : (1 / 2 ^ 53 : ℚ) * |dec6 x| ≤ 1 / 2 ^ 53 * (179769 * 10 ^ 303) :=
    mul_le_mul_of_nonneg_left h1 (by positivity)
  linarith

/-- A number close to a six digit decimal is printed as this decimal. -/
theorem dec6_of_near {x d : ℚ} (hd : IsDecimal 6 d) (h : |x - d| < |d| / (2 * 10 ^ 6)) : dec6 x = d := by
  refine decimal_sep (P := 6) (by norm_num) (dec6_nearest x).1 hd ?_
  have h1 := (dec6_nearest x).2 d hd
  have h2 : |dec6 x - d| ≤ |x - dec6 x| + |x - d| := by
    have := abs_sub_le (dec6 x) x d
    rwa [abs_sub_comm (dec6 x) x] at this
  have : |d| / 10 ^ 6 = 2 * (|d| / (2 * 10 ^ 6)) := by field_simp
  rw [this]
  linarith

theorem atof_fmtG (x : ℚ) : atof (fmtG (.fin x)) = binary64.ofRat (dec6 x) := by
  unfold atof
  rw [scanNum_fmtG]
  rfl

/-! ## C97 -/

/-- C97: one number.  Every finite double `x` written by `savetxt` and read by `loadtxt<double>` comes
back finite, as the double nearest to a decimal of six significant digits that is nearest to `x`; the
relative change is at most `5.0001·10⁻⁶` (plus half the smallest subnormal number).  NaN and infinities
come back as themselves. -/
theorem C97_number (x : ℚ) (hx : |x| ≤ 2 ^ 1024 - 2 ^ 970) :
    (∃ d, IsNearestDecimal 6 x d ∧ atof (fmtG (.fin x)) = IFl.fin (binary64.rnd d)) ∧
    (∃ y, atof (fmtG (.fin x)) = IFl.fin y ∧ |y - x| ≤ 50001 / 10 ^ 10 * |x| + (2 : ℚ) ^ (-1075 : ℤ)) ∧
    atof (fmtG .nan) = IFl.nan ∧ ∀ b, atof (fmtG (.inf b)) = IFl.inf b := by
  have h : atof (fmtG (.fin x)) = IFl.fin (binary64.rnd (dec6 x)) := by
    rw [atof_fmtG, Fmt.ofRat_fin _ (rnd_dec6_lt x hx)]; rfl
  refine ⟨⟨_, dec6_nearest x, h⟩, ⟨_, h, ?_⟩, by decide +kernel, by decide +kernel⟩
  have h1 := binary64.rnd_err (dec6 x)
  have h2 := dec6_err x
  have hu : binary64.u = 1 / 2 ^ 53 := rfl
  have he : binary64.eta = (2 : ℚ) ^ (-1075 : ℤ) := rfl
  rw [hu, he] at h1
  have h3 : |dec6 x| ≤ |dec6 x - x| + |x| := by
    have := abs_add_le (dec6 x - x) x
    rwa [sub_add_cancel] at this
  have h4 := abs_sub_le (binary64.rnd (dec6 x)) (dec6 x) x
  have h5 := abs_nonneg x
  have h6 : (1 / 2 ^ 53 : ℚ) * |dec6 x| ≤ 1 / 2 ^ 53 * (1 / 200000 * |x| + |x|) :=
    mul_le_mul_of_nonneg_left (by linarith) (by positivity)
  nlinarith

/-- C97: a double that is nearest to some decimal of at most six significant digits (in particular every
integer of at most six digits) comes back unchanged. -/
theorem C97_six_digits (d : ℚ) (hd : IsDecimal 6 d)
    (hr : (2 : ℚ) ^ (-1022 : ℤ) ≤ |d| ∧ |d| ≤ 179769 * 10 ^ 303 ∨ d = 0) :
    atof (fmtG (.fin (binary64.rnd d))) = IFl.fin (binary64.rnd d) := by
  rcases hr with ⟨hr, hr2⟩ | rfl
  · have h1 := binary64.rnd_err_normal (q := d) hr
    have hu : binary64.u = 1 / 2 ^ 53 := rfl
    rw [hu] at h1
    have hp : 0 < |d| := lt_of_lt_of_le (by positivity) hr
    have e : dec6 (binary64.rnd d) = d := by
      refine dec6_of_near hd (lt_of_le_of_lt h1 ?_)
      rw [div_eq_inv_mul |d|]
      exact mul_lt_mul_of_pos_right (show (1 / 2 ^ 53 : ℚ) < (2 * 10 ^ 6)⁻¹ by norm_num) hp
    rw [atof_fmtG, e, Fmt.ofRat_fin]
    · rfl
    · have h3 : |binary64.rnd d| ≤ |binary64.rnd d - d| + |d| := by
        have := abs_add_le (binary64.rnd d - d) d
        rwa [sub_add_cancel] at this
      have h4 : (1 / 2 ^ 53 * (179769 * 10 ^ 303) + 179769 * 10 ^ 303 : ℚ) < 2 ^ 1024 := by norm_num
      have h5 : (2 : ℚ) ^ binary64.emax = 2 ^ 1024 := zpow_natCast 2 1024
      rw [h5]
      have h6 : (1 / 2 ^ 53 : ℚ) * |d| ≤ 1 / 2 ^ 53 * (179769 * 10 ^ 303) :=
        mul_le_mul_of_nonneg_left hr2 (by positivity)
      linarith
  · rw [Fmt.rnd_zero]; decide +kernel

-- non-vacuity: 0.1, and 123456
example : IsDecimal 6 (1 / 10) ∧ (2 : ℚ) ^ (-1022 : ℤ) ≤ |1 / 10| ∧ |(1 / 10 : ℚ)| ≤ 179769 * 10 ^ 303 := by
  refine ⟨⟨1, -1, by norm_num, by norm_num⟩, ?_, ?_⟩
  · rw [abs_of_pos (by norm_num)]; norm_num
  · rw [abs_of_pos (by norm_num)]; norm_num

/-- C97: saving again what was loaded writes the same text, and loading it gives the same number, for
`double` and for `float` (numbers in the normal range of the type): the loss of digits happens once. -/
theorem C97_reload (x : ℚ) :
    ((2 : ℚ) ^ (-1021 : ℤ) ≤ |x| → |x| ≤ 2 ^ 1024 - 2 ^ 970 →
      ∃ y, atof (fmtG (.fin x)) = IFl.fin y ∧ fmtG (.fin y) = fmtG (.fin x)) ∧
    ((2 : ℚ) ^ (-125 : ℤ) ≤ |x| → |x| ≤ 2 ^ 127 →
      ∃ y, atofFloat (fmtG (.fin x)) = IFl.fin y ∧ fmtG (.fin y) = fmtG (.fin x)) := by
  have herr := dec6_err x
  have h5 := abs_nonneg x
  have hlow : |x| - |dec6 x - x| ≤ |dec6 x| := by
    have := abs_sub_abs_le_abs_sub x (x - dec6 x)
    rw [show x - (x - dec6 x) = dec6 x by ring, abs_sub_comm x (dec6 x)] at this
    exact this
  have hup : |dec6 x| ≤ |dec6 x - x| + |x| := by
    have := abs_add_le (dec6 x - x) x
    rwa [sub_add_cancel] at this
  -- a number close to the printed decimal has the same text
  have same : ∀ y : ℚ, x ≠ 0 → |y - dec6 x| < |dec6 x| / (2 * 10 ^ 6) →
      fmtG (.fin y) = fmtG (.fin x) := by
    intro y hx0 hy
    have e := dec6_of_near (dec6_nearest x).1 hy
    have hxp : 0 < |x| := abs_pos.mpr hx0
    have hyx : |y - x| < |x| := by
      have := abs_sub_le y (dec6 x) x
      have h8 : |dec6 x| / (2 * 10 ^ 6) ≤ (1 / 200000 * |x| + |x|) / (2 * 10 ^ 6) :=
        div_le_div_of_nonneg_right (by linarith) (by positivity)
      have h9 : (1 / 200000 * |x| + |x|) / (2 * 10 ^ 6) + 1 / 200000 * |x| < |x| := by
        have : (1 / 200000 * |x| + |x|) / (2 * 10 ^ 6) + 1 / 200000 * |x| =
          ((1 / 200000 + 1) / (2 * 10 ^ 6) + 1 / 200000) * |x| := by ring
        rw [this]
        exact mul_lt_of_lt_one_left hxp (by norm_num)
      linarith
    have hpos : 0 < y * x := by
      rcases lt_or_gt_of_ne hx0 with hx | hx
      · rw [abs_of_neg hx, abs_lt] at hyx
        exact mul_pos_of_neg_of_neg (by linarith) hx
      · rw [abs_of_pos hx, abs_lt] at hyx
        exact mul_pos (by linarith) hx
    exact fmtG_of_dec6 e (by rintro rfl; simp at hpos) hpos
  have hp : ∀ e : ℤ, (2 : ℚ) ^ e ≤ |x| → x ≠ 0 ∧ (2 : ℚ) ^ (e - 1) ≤ |dec6 x| ∧ 0 < |dec6 x| := by
    intro e he
    have h0 : (0 : ℚ) < (2 : ℚ) ^ e := by positivity
    have h1 : (2 : ℚ) ^ (e - 1) = (2 : ℚ) ^ e / 2 := by rw [zpow_sub_one₀ two_ne_zero]; rfl
    refine ⟨abs_pos.mp (by linarith), by rw [h1]; linarith, by linarith⟩
  constructor
  · intro h1 h2
    obtain ⟨hx0, hn, hd0⟩ := hp (-1021) h1
    refine ⟨binary64.rnd (dec6 x), ?_, same _ hx0 ?_⟩
    · rw [atof_fmtG, Fmt.ofRat_fin _ (rnd_dec6_lt x h2)]; rfl
    · refine lt_of_le_of_lt (binary64.rnd_err_normal hn) ?_
      have hu : binary64.u = 1 / 2 ^ 53 := rfl
      rw [hu, div_eq_inv_mul |dec6 x|]
      exact mul_lt_mul_of_pos_right (show (1 / 2 ^ 53 : ℚ) < (2 * 10 ^ 6)⁻¹ by norm_num) hd0
  · intro h1 h2
    obtain ⟨hx0, hn, hd0⟩ := hp (-125) h1
    have hn64 : (2 : ℚ) ^ binary64.emin ≤ |dec6 x| :=
      le_trans (zpow_le_zpow_right₀ (by norm_num) (by unfold binary64; norm_num)) hn
    have r64 := binary64.rnd_err_normal hn64
    have hu : binary64.u = 1 / 2 ^ 53 := rfl
    have hu32 : binary32.u = 1 / 2 ^ 24 := rfl
    rw [hu] at r64
    set z := binary64.rnd (dec6 x) with hz
    have hzd : |z| ≤ |z - dec6 x| + |dec6 x| := by
      have := abs_add_le (z - dec6 x) (dec6 x)
      rwa [sub_add_cancel] at this
    have hz32 : (2 : ℚ) ^ binary32.emin ≤ |z| := by
      -- `x ≥ 2^-125`, so the decimal and the double are far above `2^-126`
      have h6 : |dec6 x| - |z - dec6 x| ≤ |z| := by
        have := abs_sub_abs_le_abs_sub (dec6 x) (dec6 x - z)
        rw [show dec6 x - (dec6 x - z) = z by ring, abs_sub_comm (dec6 x) z] at this
        exact this
      have h7 : (2 : ℚ) ^ binary32.emin = (2 : ℚ) ^ (-125 : ℤ) / 2 := by
        rw [show binary32.emin = -125 - 1 from rfl, zpow_sub_one₀ two_ne_zero]; rfl
      rw [h7]
      have hd2 : |dec6 x| - 1 / 2 ^ 53 * |dec6 x| ≤ |z| := by linarith
      have hd3 : |dec6 x| - 1 / 2 ^ 53 * |dec6 x| = (1 - 1 / 2 ^ 53) * |dec6 x| := by ring
      have hd4 : (199999 / 200000 : ℚ) * |x| ≤ |dec6 x| := by linarith
      have hd5 : (1 - 1 / 2 ^ 53 : ℚ) * (199999 / 200000 * |x|) ≤ (1 - 1 / 2 ^ 53) * |dec6 x| :=
        mul_le_mul_of_nonneg_left hd4 (by norm_num)
      have hd6 : (1 / 2 : ℚ) * |x| ≤ (1 - 1 / 2 ^ 53) * (199999 / 200000 * |x|) := by
        rw [← mul_assoc]
        exact mul_le_mul_of_nonneg_right (by norm_num) h5
      generalize (2 : ℚ) ^ (-125 : ℤ) = t at h1 ⊢
      linarith
    have r32 := binary32.rnd_err_normal hz32
    rw [hu32] at r32
    refine ⟨binary32.rnd z, ?_, same _ hx0 ?_⟩
    · unfold atofFloat
      have h2' : |x| ≤ 2 ^ 1024 - 2 ^ 970 := le_trans h2 (by norm_num)
      rw [atof_fmtG, Fmt.ofRat_fin _ (rnd_dec6_lt x h2')]
      show binary32.ofRat z = _
      rw [Fmt.ofRat_fin]
      · rfl
      · have h8 : |binary32.rnd z| ≤ |binary32.rnd z - z| + |z| := by
          have := abs_add_le (binary32.rnd z - z) z
          rwa [sub_add_cancel] at this
        have h9 : (2 : ℚ) ^ binary32.emax = 2 * 2 ^ 127 := by unfold binary32; norm_num
        rw [h9]
        nlinarith
    · have h8 := abs_sub_le (binary32.rnd z) z (dec6 x)
      rw [lt_div_iff₀ (by positivity)]
      nlinarith

/-- C97 (negation of "saving and loading restores the numbers"): doubles with more than six significant
digits are changed: 1234567 comes back as 1234570, and 0.1234567 as another number. -/
theorem C97_digits_lost_false :
    fmtG (.fin 1234567) = "1.23457e+06".toList ∧
    atof (fmtG (.fin 1234567)) = IFl.fin 1234570 ∧
    ∃ x : ℚ, binary64.rnd x = x ∧ atof (fmtG (.fin x)) ≠ IFl.fin x ∧ |x| < 1 := by
  refine ⟨?_, ?_, binary64.rnd (1234567 / 10000000), ?_, ?_, ?_⟩
  all_goals decide +kernel


/-! ### Tables of numbers -/

/-- The characters of a printed floating point number. -/
def Spec.isFloatChar (ch : Char) : Bool := ch ∈ "0123456789+-.einfa".toList

theorem isFloatChar_dig {ch : Char} (h : isDig ch = true) : isFloatChar ch = true := by
  obtain ⟨d, hd, rfl⟩ := isDig_cases h
  interval_cases d <;> decide

theorem mem_joinFrac {ip fp : List Char} {ch : Char} (h1 : ∀ c ∈ ip, isDig c = true)
    (h2 : ∀ c ∈ fp, isDig c = true) (h : ch ∈ joinFrac ip fp) : isFloatChar ch = true := by
  unfold joinFrac at h
  split at h
  · exact isFloatChar_dig (h1 ch h)
  · rcases List.mem_append.1 h with h | h
    · exact isFloatChar_dig (h1 ch h)
    · rcases List.mem_cons.1 h with rfl | h
      · decide
      · exact isFloatChar_dig (h2 ch h)

theorem mem_layoutG {k : ℕ} {X : ℤ} {ch : Char} (h : ch ∈ layoutG k X) : isFloatChar ch = true := by
  have hdig := isDig_printNat k
  have ht : ∀ n, ∀ c ∈ (printNat k).take n, isDig c = true := fun n c h => hdig c (List.mem_of_mem_take h)
  have hdr : ∀ n, ∀ c ∈ (printNat k).drop n, isDig c = true := fun n c h => hdig c (List.mem_of_mem_drop h)
  unfold layoutG at h
  simp only at h
  split at h
  · split at h
    · exact mem_joinFrac (ht _) (dropZeros_dig (hdr _)) h
    · refine mem_joinFrac (ip := ['0']) (by intro c hc; rw [List.mem_singleton.1 hc]; decide)
        (dropZeros_dig ?_) h
      intro c hc
      rcases List.mem_append.1 hc with hc | hc
      · rw [List.eq_of_mem_replicate hc]; decide
      · exact hdig c hc
  · rcases List.mem_append.1 h with h | h
    · exact mem_joinFrac (ht _) (dropZeros_dig (hdr _)) h
    · rcases List.mem_cons.1 h with rfl | h
      · decide
      · unfold expText at h
        rcases List.mem_cons.1 h with rfl | h
        · split <;> decide
        · split at h
          · rcases List.mem_cons.1 h with rfl | h
            · decide
            · exact isFloatChar_dig (isDig_printNat _ _ h)
          · exact isFloatChar_dig (isDig_printNat _ _ h)

theorem mem_fmtG {x : Fl} {ch : Char} (h : ch ∈ fmtG x) : isFloatChar ch = true := by
  cases x with
  | nan => revert ch; simp only [fmtG]; decide
  | inf b => cases b <;> · revert ch; simp only [fmtG]; decide
  | fin q =>
    simp only [fmtG] at h
    split_ifs at h
    · rw [List.mem_singleton.1 h]; decide
    · rcases List.mem_cons.1 h with rfl | h
      · decide
      · exact mem_layoutG h
    · exact mem_layoutG h

theorem fmtG_ne_nil (x : Fl) : fmtG x ≠ [] := by
  cases x with
  | nan => decide
  | inf b => cases b <;> decide
  | fin q =>
    intro h
    have := scanNum_fmtG q
    rw [h, show scanNum [] = none by decide] at this
    cases this

/-- C97, tables: a table of floating point numbers written with `savetxt` and read with `loadtxt` (with a
delimiter and a comment character that do not occur in numbers) has the same shape, and each entry is read
from its own text: it is the number that `C97_number` and `C97_reload` describe. -/
theorem C97_table {delim comments : Char} {cols : List (List Fl)} {m : ℕ} (hne : cols ≠ [])
    (hm : ∀ c ∈ cols, c.length = m) (hd : delim ≠ '\n') (hd0 : delim ≠ '\x00') (hc0 : comments ≠ '\x00')
    (hdd : isFloatChar delim = false) (hcc : isFloatChar comments = false) :
    ∃ contents, savetxtTuple delim '\n' (cols.map fun c => c.map fmtG) = .ok contents ∧
      loadtxtTuples (fun _ => atof) cols.length {} { comments := comments, delimiter := delim } (some contents) =
        .ok ((List.range m).map fun i : ℕ => cols.map fun c => atof (fmtG (c.getD i .nan))) := by
  have hnotin : ∀ (ch : Char) (x : Fl), isFloatChar ch = false → ch ∉ fmtG x := by
    intro ch x h1 hmem
    rw [mem_fmtG hmem] at h1
    cases h1
  have hgood : ∀ x, GoodCell delim (fmtG x) := fun x =>
    ⟨fmtG_ne_nil x, hnotin _ x hdd, hnotin _ x (by decide), hnotin _ x (by decide)⟩
  have hne' : (cols.map fun c => c.map fmtG) ≠ [] := by simpa using hne
  obtain ⟨contents, hs, hl⟩ := C63_roundtrip (α := D64) (comments := comments) (m := m) hne'
    (by
      intro c hc
      obtain ⟨c', hc', rfl⟩ := List.mem_map.1 hc
      simpa using hm c' hc') hd hd0 hc0 (by
      intro c hc x hx
      obtain ⟨c', hc', rfl⟩ := List.mem_map.1 hc
      obtain ⟨z, _, rfl⟩ := List.mem_map.1 hx
      exact hgood z) (by
      intro x hx
      have hx' : ∃ z, x = fmtG z := by
        obtain ⟨c0, cs, rfl⟩ := List.exists_cons_of_ne_nil hne
        simp only [List.map_cons, List.head_cons, List.mem_map] at hx
        obtain ⟨z, _, rfl⟩ := hx
        exact ⟨z, rfl⟩
      obtain ⟨z, rfl⟩ := hx'
      intro h
      exact hnotin comments z hcc (List.mem_of_mem_head? (by rw [h]; rfl))) (fun _ => atof)
  refine ⟨contents, hs, ?_⟩
  rw [List.length_map] at hl
  rw [hl]
  congr 1
  apply List.map_congr_left
  intro i hi
  have hi' := List.mem_range.1 hi
  apply List.ext_getElem
  · simp [tableRow]
  · intro j h1 h2
    have hj : j < cols.length := by simpa using h2
    have hlen := hm cols[j] (List.getElem_mem _)
    simp only [List.getElem_map, List.getElem_zipIdx, tableRow]
    rw [List.getD_eq_getElem _ _ (by simp; omega), List.getD_eq_getElem _ _ (by omega), List.getElem_map]

/-- Satisfiable, with the usual separators. -/
example : isFloatChar ',' = false ∧ isFloatChar ' ' = false ∧ isFloatChar '\t' = false ∧
    isFloatChar ';' = false ∧ isFloatChar '#' = false ∧
    [[.fin (1 / 4), .nan], [.fin (-3), .inf true]].map (List.map fmtG) =
      [["0.25".toList, "nan".toList], ["-3".toList, "-inf".toList]] := by
  decide +kernel

/-! ### Complex numbers -/

theorem pad6_dig (n : ℕ) : ∀ ch ∈ pad6 n, isDig ch = true := by
  intro ch hch
  unfold pad6 at hch
  obtain ⟨i, _, rfl⟩ := List.mem_map.1 hch
  exact isDig_ofNat (Nat.mod_lt _ (by norm_num))

theorem readDigits_pad6 (n : ℕ) : readDigits (pad6 n) (n / 10 ^ 6) = n := by
  have h : ∀ m : ℕ, digitVal (Char.ofNat (48 + m % 10)) = some (m % 10) :=
    fun m => digitVal_ofNat (Nat.mod_lt _ (by norm_num))
  simp only [pad6, List.range, List.range.loop, List.map_cons, List.map_nil, readDigits, h]
  norm_num
  omega

/-- The number printed by `%f`: an integral number of millionths. -/
def micro (q : ℚ) : ℚ :=
  if q < 0 then -((nearestEven (|q| * 10 ^ 6) : ℚ) / 10 ^ 6) else (nearestEven (|q| * 10 ^ 6) : ℚ) / 10 ^ 6

theorem scanNum_fmtF (q : ℚ) (tail : List Char) (ht : tail.takeWhile isDig = [])
    (hdot : tail.head? ≠ some '.') (he : scanExp tail = (0, tail)) :
    scanNum (fmtF (.fin q) ++ tail) = some (.fin (micro q), tail) := by
  have hn0 : 0 ≤ nearestEven (|q| * 10 ^ 6) := by
    have := nearestEven_mono (show (((0 : ℤ) : ℚ)) ≤ |q| * 10 ^ 6 by push_cast; positivity)
    rwa [nearestEven_int] at this
  obtain ⟨n, hn⟩ := Int.eq_ofNat_of_zero_le hn0
  have hj : printNat (n / 10 ^ 6) ++ '.' :: pad6 n = joinFrac (printNat (n / 10 ^ 6)) (pad6 n) := by
    unfold joinFrac
    rw [if_neg (by simp [pad6, List.range, List.range.loop])]
  have hsd := scanDec_join (printNat (n / 10 ^ 6)) (pad6 n) tail (isDig_printNat _) (printNat_ne_nil _)
    (pad6_dig n) ht hdot
  have hlen : (pad6 n).length = 6 := by simp [pad6]
  rw [he, readDigits_append' _ _ (isDig_printNat _), readDigits_printNat, readDigits_pad6, hlen] at hsd
  have hval : (n : ℚ) * (10 : ℚ) ^ ((0 : ℤ) - ((6 : ℕ) : ℤ)) = (n : ℚ) / 10 ^ 6 := by
    norm_num [div_eq_mul_inv]
  simp only at hsd
  rw [hval] at hsd
  obtain ⟨c, t, e⟩ := List.exists_cons_of_ne_nil (printNat_ne_nil (n / 10 ^ 6))
  have hc : isDig c = true := isDig_printNat (n / 10 ^ 6) c (by rw [e]; simp)
  have hform : joinFrac (printNat (n / 10 ^ 6)) (pad6 n) ++ tail = c :: (joinFrac t (pad6 n) ++ tail) := by
    rw [e, joinFrac_head]; rfl
  rw [hform] at hsd
  obtain ⟨a, b⟩ := scanNum_dig c (joinFrac t (pad6 n) ++ tail) hc
  unfold fmtF micro
  simp only [hn]
  rw [Int.toNat_natCast, Int.cast_natCast]
  by_cases hq : q < 0
  · simp only [hq, if_true]
    rw [show ['-'] ++ printNat (n / 10 ^ 6) ++ '.' :: pad6 n
        = '-' :: (printNat (n / 10 ^ 6) ++ '.' :: pad6 n) by simp, hj, List.cons_append, hform, b, hsd]
    rfl
  · simp only [hq, if_false, List.nil_append]
    rw [hj, hform, a, hsd]
    rfl

theorem micro_spec (q : ℚ) : ∃ k : ℤ, micro q = k / 10 ^ 6 ∧ |micro q - q| ≤ 1 / (2 * 10 ^ 6) := by
  have h := nearestEven_err (|q| * 10 ^ 6)
  have h' : abs ((nearestEven (|q| * 10 ^ 6) : ℚ) / 10 ^ 6 - |q|) ≤ 1 / (2 * 10 ^ 6) := by
    have e : (nearestEven (|q| * 10 ^ 6) : ℚ) / 10 ^ 6 - |q| =
        ((nearestEven (|q| * 10 ^ 6) : ℚ) - |q| * 10 ^ 6) / 10 ^ 6 := by field_simp
    rw [e, abs_div, abs_of_pos (show (0 : ℚ) < 10 ^ 6 by norm_num), div_le_div_iff₀ (by norm_num) (by norm_num)]
    generalize abs ((nearestEven (|q| * 10 ^ 6) : ℚ) - |q| * 10 ^ 6) = w at h ⊢
    linarith
  unfold micro
  split_ifs with hq
  · refine ⟨-nearestEven (|q| * 10 ^ 6), by push_cast; ring, ?_⟩
    rw [abs_of_neg hq] at h' ⊢
    rw [show -((nearestEven (-q * 10 ^ 6) : ℚ) / 10 ^ 6) - q =
      -((nearestEven (-q * 10 ^ 6) : ℚ) / 10 ^ 6 - -q) by ring, abs_neg]
    exact h'
  · refine ⟨nearestEven (|q| * 10 ^ 6), rfl, ?_⟩
    rw [abs_of_nonneg (not_lt.1 hq)] at h' ⊢
    exact h'

/-- C97, complex numbers: both parts come back as the double nearest to an integral number `k`, `l` of
millionths, at most half a millionth away from the saved part. -/
theorem C97_complex (a b : ℚ) :
    ∃ k l : ℤ, |(k : ℚ) / 10 ^ 6 - a| ≤ 1 / (2 * 10 ^ 6) ∧ |(l : ℚ) / 10 ^ 6 - b| ≤ 1 / (2 * 10 ^ 6) ∧
      toComplex scanLf (fmtComplex (.fin a) (.fin b)) =
        .ok (some (binary64.ofRat (k / 10 ^ 6), binary64.ofRat (l / 10 ^ 6))) := by
  obtain ⟨k, hk, hk'⟩ := micro_spec a
  obtain ⟨l, hl, hl'⟩ := micro_spec b
  refine ⟨k, l, hk ▸ hk', hl ▸ hl', ?_⟩
  have h1 := scanNum_fmtF a ('+' :: (fmtF (.fin b) ++ ['j'])) (by
    rw [List.takeWhile_cons_of_neg (by decide)]) (by simp) (by simp [scanExp])
  have h2 := scanNum_fmtF b ['j'] (by decide) (by decide) (by decide)
  rw [← hk, ← hl]
  have l1 : scanLf (fmtComplex (.fin a) (.fin b)) =
      some (binary64.ofRat (micro a), '+' :: (fmtF (.fin b) ++ ['j'])) := by
    unfold scanLf fmtComplex
    rw [h1]; rfl
  have l2 : scanLf (fmtF (.fin b) ++ ['j']) = some (binary64.ofRat (micro b), ['j']) := by
    unfold scanLf
    rw [h2]; rfl
  exact (C62_complex_fields scanLf _ _ _ l1).2 _ _ _ rfl l2

/-- C97 (negation, complex numbers): small complex numbers are lost altogether: 10⁻⁷ + 2·10⁻⁷ i, which
`savetxt` would keep if it were a pair of real columns, comes back as 0. -/
theorem C97_complex_lost_false :
    fmtComplex (.fin (1 / 10 ^ 7)) (.fin (2 / 10 ^ 7)) = "0.000000+0.000000j".toList ∧
    toComplex scanLf (fmtComplex (.fin (1 / 10 ^ 7)) (.fin (2 / 10 ^ 7))) =
      .ok (some (IFl.fin 0, IFl.fin 0)) ∧
    fmtG (.fin (1 / 10 ^ 7)) = "1e-07".toList := by
  refine ⟨?_, ?_, ?_⟩
  all_goals decide +kernel

/-- C97, C62: white space (blanks, tabs, line feeds, carriage returns, vertical tabs, form feeds) in front of a number
is skipped, in integers, floating point and complex numbers. -/
theorem C97_leading_space (w s : List Char)
    (hw : ∀ c ∈ w, c = ' ' ∨ c = '\t' ∨ c = '\n' ∨ c = '\r' ∨ c = '\x0b' ∨ c = '\x0c') :
    atoi (w ++ s) = atoi s ∧ atof (w ++ s) = atof s ∧ scanLf (w ++ s) = scanLf s := by
  have h : (w ++ s).dropWhile isSpaceC = s.dropWhile isSpaceC := by
    induction w with
    | nil => rfl
    | cons c w ih =>
      have hc : isSpaceC c = true := by
        rcases hw c (by simp) with rfl | rfl | rfl | rfl | rfl | rfl <;> decide
      rw [List.cons_append, List.dropWhile_cons_of_pos hc]
      exact ih fun d hd => hw d (by simp [hd])
  have h2 : scanNum (w ++ s) = scanNum s := by unfold scanNum; rw [h]
  refine ⟨by unfold atoi; rw [h], by unfold atof; rw [h2], by unfold scanLf; rw [h2]⟩

/-- C97, C62: a field that starts with another character (a letter, a bracket, ...) reads as 0. -/
theorem C97_no_number (c : Char) (s : List Char) (hs : isSpaceC c = false) (hd : isDig c = false)
    (hc : c ≠ '-' ∧ c ≠ '+' ∧ c ≠ '.' ∧ c ≠ 'i' ∧ c ≠ 'n') :
    atoi (c :: s) = .ok 0 ∧ atof (c :: s) = IFl.fin 0 := by
  obtain ⟨h1, h2, h3, h4, h5⟩ := hc
  have hdr : (c :: s).dropWhile isSpaceC = c :: s := List.dropWhile_cons_of_neg (by simp [hs])
  constructor
  · unfold atoi
    rw [hdr]
    have : readSigned (c :: s) = 0 := by
      unfold readSigned
      split
      · rename_i t h; injection h with h; exact absurd h h1
      · rename_i t h; injection h with h; exact absurd h h2
      · have : digitVal c = none := by
          simpa [isDig] using hd
        simp [readDigits, this]
    rw [this]
    decide
  · unfold atof scanNum
    simp only [hdr, List.head?_cons, Option.some.injEq, h1, h2, if_false]
    have h6 : (c :: s).take 3 ≠ "inf".toList := by
      intro h
      have := congrArg List.head? h
      simp at this
      exact h4 this
    have h7 : (c :: s).take 3 ≠ "nan".toList := by
      intro h
      have := congrArg List.head? h
      simp at this
      exact h5 this
    have h8 : scanDec (c :: s) = none := by
      unfold scanDec scanFrac
      simp [hd, h3]
    unfold scanUnsigned
    rw [if_neg h6, if_neg h7, h8]
    rfl

end SciCpp
