import Verif.Proofs.PrintNum
import Verif.Proofs.IeeeMono
import Verif.Props.Print
import Verif.Props.Extrema
/-
  Property theorems C98: the text of printed numbers.
-/
namespace SciCpp
open Spec

/-! ### The text in fixed notation -/

/-- Zeros after a decimal point are blanked. -/
theorem removeTrailingZeros_point (u fp : List Char) :
    removeTrailingZeros (u ++ '.' :: fp) =
      u ++ '.' :: (dropZeros fp ++ List.replicate (fp.length - (dropZeros fp).length) ' ') := by
  have hne : u ++ '.' :: fp ≠ ['0'] := by
    intro h
    have : '.' ∈ ['0'] := by rw [← h]; simp
    simp at this
  have hlen : ((u ++ '.' :: fp).reverse.dropWhile fun ch => decide (ch = '0')).length =
      u.length + 1 + (dropZeros fp).length := by
    rw [List.reverse_append, List.reverse_cons, List.append_assoc, List.dropWhile_append]
    have hp : (['.'] ++ u.reverse).dropWhile (fun ch => decide (ch = '0')) = ['.'] ++ u.reverse := by
      rw [List.cons_append, List.dropWhile_cons_of_neg (by decide)]
    have hd : (fp.reverse.dropWhile fun ch => decide (ch = '0')).length = (dropZeros fp).length := by
      unfold dropZeros List.rdropWhile
      rw [List.length_reverse]
    split_ifs with he
    · rw [hp]
      have : (dropZeros fp).length = 0 := by rw [← hd, List.isEmpty_iff.1 he]; rfl
      simp [this]
    · rw [List.length_append, hd]; simp; omega
  have hpre : dropZeros fp <+: fp := List.rdropWhile_prefix _ _
  unfold removeTrailingZeros
  rw [if_pos hne]
  simp only [hlen]
  rw [show u.length + 1 + (dropZeros fp).length = u.length + (1 + (dropZeros fp).length) by omega,
    List.take_append, List.take_of_length_le (by omega)]
  rw [show u.length + (1 + (dropZeros fp).length) - u.length = (dropZeros fp).length + 1 by omega,
    List.take_succ_cons, ← List.prefix_iff_eq_take.1 hpre]
  rw [List.append_assoc, List.cons_append]
  congr 4
  simp; omega

/-- A decimal point and digits, possibly none, and blanks. -/
theorem scanDec_point (ip fp tail : List Char) (hip : ∀ ch ∈ ip, isDig ch = true) (hne : ip ≠ [])
    (hfp : ∀ ch ∈ fp, isDig ch = true) (ht : EndsNumber tail) :
    scanDec (ip ++ '.' :: (fp ++ tail)) =
      some ((readDigits (ip ++ fp) 0 : ℚ) * (10 : ℚ) ^ ((0 : ℤ) - (fp.length : ℤ)), tail) := by
  unfold scanDec
  obtain ⟨e1, e2⟩ := takeWhile_dig (b := '.' :: (fp ++ tail)) hip (by
    rw [List.takeWhile_cons_of_neg (by decide)])
  obtain ⟨e3, e4⟩ := takeWhile_dig hfp ht.1
  have hsf : scanFrac ('.' :: (fp ++ tail)) = (fp, tail) := by
    simp only [scanFrac, if_true, e3, e4]
  simp only [e1, e2, hsf, ht.2.2]
  rw [if_neg (by simp [hne])]

theorem ends_blanks (b : ℕ) : EndsNumber (List.replicate b ' ') := by
  cases b with
  | zero => exact ⟨rfl, by simp, rfl⟩
  | succ b =>
    rw [List.replicate_succ]
    exact ⟨by rw [List.takeWhile_cons_of_neg (by decide)], by simp, by simp [scanExp]⟩

theorem ends_cons {c : Char} (h : c = '+' ∨ c = '-' ∨ c = 'j' ∨ c = ',' ∨ c = ')') (t : List Char) :
    EndsNumber (c :: t) := by
  rcases h with rfl | rfl | rfl | rfl | rfl <;>
  exact ⟨by rw [List.takeWhile_cons_of_neg (by decide)], by simp, by simp [scanExp]⟩

theorem rawReal_fin (o : FmtOpts) (fixed : Bool) (q : ℚ) :
    rawReal o fixed (.fin q) =
      List.replicate (12 - (numText fixed o.precision q).length) ' ' ++ numText fixed o.precision q := rfl

/-- C98, real numbers: what is printed for a finite number, read as a number, is the number rounded to the
precision (decimals in fixed notation, significant digits after the first in scientific notation); the
blanks that replace zeros do not matter; the field has at least twelve characters. -/
theorem C98_real (o : FmtOpts) (fixed : Bool) (q : ℚ) (hp : fixed = true → 1 ≤ o.precision) :
    ∃ v b, PrintsAs fixed o.precision q v ∧
      scanNum (fmterStr fixed (rawReal o fixed (.fin q))) = some (.fin v, List.replicate b ' ') ∧
      12 ≤ (fmterStr fixed (rawReal o fixed (.fin q))).length := by
  refine ⟨numVal fixed o.precision q, ?_⟩
  rw [rawReal_fin]
  generalize hw : 12 - (numText fixed o.precision q).length = w
  cases fixed
  · refine ⟨0, numVal_prints _ _ _, ?_, ?_⟩
    · show scanNum (List.replicate w ' ' ++ numText false o.precision q) = _
      rw [scanNum_blanks]
      have := scanNum_numText false o.precision q [] (ends_blanks 0)
      rwa [List.append_nil] at this
    · show 12 ≤ (List.replicate w ' ' ++ numText false o.precision q).length
      rw [List.length_append, List.length_replicate]; omega
  · have hp := hp rfl
    obtain ⟨n, hn⟩ := Int.eq_ofNat_of_zero_le
      (nearestEven_nonneg (mul_nonneg (abs_nonneg q) (by positivity : (0 : ℚ) ≤ 10 ^ o.precision)))
    have hfp : padN o.precision n ≠ [] := by
      intro h
      have := padN_length o.precision n
      rw [h] at this
      simp at this; omega
    have htext : fixedText o.precision |q| =
        printNat (n / 10 ^ o.precision) ++ '.' :: padN o.precision n := by
      unfold fixedText joinFrac
      simp only [hn, Int.toNat_natCast, if_neg hfp]
    have hnum : numText true o.precision q = ((if q < 0 then ['-'] else []) ++
        printNat (n / 10 ^ o.precision)) ++ '.' :: padN o.precision n := by
      unfold numText
      simp only [if_true, htext, List.append_assoc]
    have hstr : fmterStr true (List.replicate w ' ' ++ numText true o.precision q) =
        (List.replicate w ' ' ++ ((if q < 0 then ['-'] else []) ++ printNat (n / 10 ^ o.precision))) ++
          '.' :: (dropZeros (padN o.precision n) ++ List.replicate
            ((padN o.precision n).length - (dropZeros (padN o.precision n)).length) ' ') := by
      show removeTrailingZeros _ = _
      rw [hnum, ← List.append_assoc, removeTrailingZeros_point]
    have hdl : (dropZeros (padN o.precision n)).length ≤ (padN o.precision n).length :=
      (List.rdropWhile_prefix _ _).length_le
    refine ⟨(padN o.precision n).length - (dropZeros (padN o.precision n)).length, numVal_prints _ _ _, ?_, ?_⟩
    · rw [hstr]
      generalize (padN o.precision n).length - (dropZeros (padN o.precision n)).length = b
      have hs := scanDec_point (printNat (n / 10 ^ o.precision)) (dropZeros (padN o.precision n))
        (List.replicate b ' ') (isDig_printNat _) (printNat_ne_nil _) (dropZeros_dig (padN_dig _ _))
        (ends_blanks b)
      rw [dropZeros_val _ _ (isDig_printNat _) (padN_dig _ _), readDigits_append' _ _ (isDig_printNat _),
        readDigits_printNat, readDigits_padN, padN_length] at hs
      have hval : (n : ℚ) * (10 : ℚ) ^ ((0 : ℤ) - (o.precision : ℤ)) = magVal true o.precision |q| := by
        unfold magVal
        simp only [hn, if_true]
        rw [zero_sub, zpow_neg, zpow_natCast, Int.cast_natCast, div_eq_mul_inv]
      rw [hval] at hs
      obtain ⟨c, t, e⟩ := List.exists_cons_of_ne_nil (printNat_ne_nil (n / 10 ^ o.precision))
      have hc : isDig c = true := isDig_printNat (n / 10 ^ o.precision) c (by rw [e]; simp)
      rw [e, List.cons_append] at hs
      obtain ⟨h1, h2⟩ := scanNum_dig c
        (t ++ '.' :: (dropZeros (padN o.precision n) ++ List.replicate b ' ')) hc
      rw [List.append_assoc, scanNum_blanks, e]
      unfold numVal
      by_cases hq : q < 0
      · simp only [hq, if_true, List.cons_append, List.nil_append, h2, hs]
        rfl
      · simp only [hq, if_false, List.nil_append, List.cons_append, h1, hs]
        rfl
    · rw [hstr]
      rw [hnum] at hw
      simp only [List.length_append, List.length_replicate, List.length_cons] at hw ⊢
      omega

/-- Text that does not end with a zero is left alone. -/
theorem fmterStr_id (fixed : Bool) (s : List Char) (h : s.getLast? ≠ some '0') : fmterStr fixed s = s := by
  unfold fmterStr removeTrailingZeros
  cases fixed
  · rfl
  · simp only [if_true]
    split_ifs with h0
    · have : s.reverse.dropWhile (fun ch => decide (ch = '0')) = s.reverse := by
        cases hr : s.reverse with
        | nil => rfl
        | cons c t =>
          rw [List.dropWhile_cons_of_neg]
          have hl : s.getLast? = some c := by rw [← List.head?_reverse, hr]; rfl
          rw [hl] at h
          simpa using h
      rw [this]; simp
    · rfl

theorem getLast_pad (a : ℕ) (s : List Char) (h : s.getLast? ≠ some '0') :
    (List.replicate a ' ' ++ s).getLast? ≠ some '0' := by
  rw [List.getLast?_append]
  cases hs : s.getLast? with
  | none =>
    rw [Option.none_or]
    cases a with
    | zero => simp
    | succ a => rw [List.getLast?_replicate]; simp
  | some c => rw [hs] at h; simpa using h

/-- C98, special values: NaN and infinities are printed as the strings of the options, right-aligned in
twelve characters (for `-inf` the minus sign is aligned and the string follows), in both notations. -/
theorem C98_special (o : FmtOpts) (fixed : Bool) (hn : o.nanstr.getLast? ≠ some '0')
    (hi : o.infstr.getLast? ≠ some '0') :
    fmterStr fixed (rawReal o fixed .nan) = List.replicate (12 - o.nanstr.length) ' ' ++ o.nanstr ∧
    fmterStr fixed (rawReal o fixed (.inf false)) = List.replicate (12 - o.infstr.length) ' ' ++ o.infstr ∧
    fmterStr fixed (rawReal o fixed (.inf true)) = List.replicate 11 ' ' ++ '-' :: o.infstr := by
  have e1 : rawReal o fixed .nan = List.replicate (12 - o.nanstr.length) ' ' ++ o.nanstr := rfl
  have e2 : rawReal o fixed (.inf false) = List.replicate (12 - o.infstr.length) ' ' ++ o.infstr := rfl
  have e3 : rawReal o fixed (.inf true) = List.replicate 11 ' ' ++ '-' :: o.infstr := by
    simp [rawReal, putScalar, Ss.put, Ss.reset, widthReal]
  refine ⟨by rw [e1]; exact fmterStr_id _ _ (getLast_pad _ _ hn),
    by rw [e2]; exact fmterStr_id _ _ (getLast_pad _ _ hi), ?_⟩
  rw [e3]
  refine fmterStr_id _ _ (getLast_pad _ _ ?_)
  rw [show '-' :: o.infstr = ['-'] ++ o.infstr from rfl, List.getLast?_append]
  cases h : o.infstr.getLast? with
  | none => simp
  | some c => rw [h] at hi; simpa using hi

/-- C98, complex numbers: the real part, the sign of the imaginary part, its magnitude and `j`; both parts
rounded to the precision. -/
theorem C98_complex (o : FmtOpts) (fixed : Bool) (a b : ℚ) :
    ∃ v w t, PrintsAs fixed o.precision a v ∧ PrintsAs fixed o.precision |b| w ∧
      scanNum (fmterStr fixed (rawComplex o fixed (.fin a, .fin b))) =
        some (.fin v, (if b < 0 then '-' else '+') :: t) ∧
      scanNum t = some (.fin w, ['j']) := by
  have hneg : isNegative (.fin b) = decide (b < 0) := rfl
  have htext : ∃ w, rawComplex o fixed (.fin a, .fin b) =
      List.replicate w ' ' ++ (numText fixed o.precision a ++
        ((if b < 0 then '-' else '+') :: (numText fixed o.precision |b| ++ ['j']))) := by
    refine ⟨(Ss.reset (widthComplex fixed)).width - (numText fixed o.precision a).length, ?_⟩
    by_cases hb : b < 0
    · have : numText fixed o.precision (-b) = numText fixed o.precision |b| := by rw [abs_of_neg hb]
      simp [rawComplex, putComplex, hneg, hb, putScalar, Ss.put, Fl.neg, this, Ss.reset]
    · have : numText fixed o.precision b = numText fixed o.precision |b| := by
        rw [abs_of_nonneg (not_lt.1 hb)]
      simp [rawComplex, putComplex, hneg, hb, putScalar, Ss.put, this, Ss.reset]
  obtain ⟨w, htext⟩ := htext
  refine ⟨numVal fixed o.precision a, numVal fixed o.precision |b|, numText fixed o.precision |b| ++ ['j'],
    numVal_prints _ _ _, numVal_prints _ _ _, ?_, scanNum_numText _ _ _ _ (ends_cons (by simp) _)⟩
  rw [htext, fmterStr_id]
  · rw [scanNum_blanks]
    exact scanNum_numText _ _ _ _ (ends_cons (by split_ifs <;> simp) _)
  · refine getLast_pad _ _ ?_
    rw [← List.cons_append, ← List.append_assoc, List.getLast?_append]
    simp

/-- The text of one component of a tuple. -/
def Spec.component (o : FmtOpts) (fixed : Bool) (x : Fl) : List Char :=
  match x with
  | .nan => o.nanstr
  | .inf b => (if b then ['-'] else []) ++ o.infstr
  | .fin q => numText fixed o.precision q

theorem putScalar_zero (o : FmtOpts) (fixed : Bool) (out : List Char) (x : Fl) :
    putScalar o fixed ⟨out, 0⟩ x = ⟨out ++ component o fixed x, 0⟩ := by
  cases x with
  | nan => simp [putScalar, Ss.put, component]
  | inf b => cases b <;> simp [putScalar, Ss.put, component]
  | fin q => simp [putScalar, Ss.put, component]

/-- C98, tuples and pairs: all components in order, separated by `", "`, in parentheses; every finite
component reads back rounded to the precision. -/
theorem C98_tuple (o : FmtOpts) (isPair fixed : Bool) (t : List Fl) (ht : t ≠ []) :
    fmterStr fixed (rawTuple o isPair fixed t) =
      List.replicate (if isPair then 11 else 0) ' ' ++
        '(' :: (", ".toList.intercalate (t.map (component o fixed)) ++ [')']) ∧
    ∀ q, ∃ v, PrintsAs fixed o.precision q v ∧
      scanNum (component o fixed (.fin q)) = some (.fin v, []) := by
  constructor
  · have key : ∀ (t : List Fl) (out : List Char), t ≠ [] → (putTuple o fixed ⟨out, 0⟩ t).out =
        out ++ (", ".toList.intercalate (t.map (component o fixed)) ++ [')']) := by
      intro t
      induction t with
      | nil => intro out h; exact absurd rfl h
      | cons x t ih =>
        intro out _
        cases t with
        | nil => simp [putTuple, putScalar_zero, Ss.put, List.intercalate]
        | cons y t =>
          rw [putTuple, putScalar_zero]
          have : (⟨out ++ component o fixed x, 0⟩ : Ss).put ", ".toList =
            ⟨out ++ component o fixed x ++ ", ".toList, 0⟩ := by simp [Ss.put]
          rw [this, ih _ (by simp)]
          simp [List.intercalate]
    have h0 : (Ss.reset (widthTuple isPair)).put ['('] =
        ⟨List.replicate (if isPair then 11 else 0) ' ' ++ ['('], 0⟩ := by
      cases isPair <;> rfl
    have : rawTuple o isPair fixed t = List.replicate (if isPair then 11 else 0) ' ' ++
        '(' :: (", ".toList.intercalate (t.map (component o fixed)) ++ [')']) := by
      unfold rawTuple
      rw [h0, key t _ ht]
      simp
    rw [this]
    refine fmterStr_id _ _ (getLast_pad _ _ ?_)
    rw [← List.cons_append, List.getLast?_append]
    simp
  · intro q
    refine ⟨_, numVal_prints fixed o.precision q, ?_⟩
    have := scanNum_numText fixed o.precision q [] (ends_blanks 0)
    rwa [List.append_nil] at this

/-! ### The choice of the notation -/

theorem lt_1000_ofRat {q : ℚ} (hq : 0 ≤ q) :
    Fl.lt (.fin 1000) (binary64.ofRat q) = true ↔ 1000 < binary64.rnd q := by
  have hr := binary64.rnd_nonneg hq
  unfold Fmt.ofRat
  split_ifs with h
  · rw [abs_of_nonneg hr] at h
    have h2 : (1000 : ℚ) < (2 : ℚ) ^ binary64.emax := by
      refine lt_of_lt_of_le (show (1000 : ℚ) < (2 : ℚ) ^ (10 : ℤ) by norm_num) ?_
      exact zpow_le_zpow_right₀ (by norm_num) (by unfold binary64; norm_num)
    rw [show decide (q < 0) = false by simpa using hq]
    exact ⟨fun _ => by linarith, fun _ => rfl⟩
  · simp [Fl.lt]

/-- C98, the notation: for floating point arrays without NaN, scientific notation is used exactly when
some finite non-zero magnitude is below the double `1E-4`, or the (rounded) ratio of two finite non-zero
magnitudes is above 1000. -/
theorem C98_notation (A : List Fl) (hn : ∀ x ∈ A, x ≠ .nan) :
    useScientificFl A = true ↔
      (∃ q, .fin q ∈ A ∧ q ≠ 0 ∧ |q| < binary64.rnd (1 / 10000)) ∨
      (∃ q r, .fin q ∈ A ∧ .fin r ∈ A ∧ r ≠ 0 ∧ 1000 < binary64.rnd (|q| / |r|)) := by
  set f := (A.map Fl.abs).filter fun x => !Fl.eqv x (.fin 0) && !x.isInf with hf
  have hmem : ∀ x, x ∈ f ↔ ∃ q, .fin q ∈ A ∧ q ≠ 0 ∧ x = .fin |q| := by
    intro x
    rw [hf, List.mem_filter, List.mem_map]
    constructor
    · rintro ⟨⟨y, hy, rfl⟩, h⟩
      cases y with
      | nan => exact absurd rfl (hn _ hy)
      | inf b => simp [Fl.abs, Fl.isInf] at h
      | fin q =>
        refine ⟨q, hy, ?_, rfl⟩
        rintro rfl
        simp [Fl.abs, Fl.eqv] at h
    · rintro ⟨q, hq, h0, rfl⟩
      exact ⟨⟨_, hq, rfl⟩, by simp [Fl.eqv, Fl.isInf, h0]⟩
  have hfn : ∀ x ∈ f, x ≠ .nan := by
    intro x hx
    obtain ⟨q, _, _, rfl⟩ := (hmem x).1 hx
    simp
  unfold useScientificFl
  simp only [← hf]
  by_cases he : f = []
  · rw [if_pos he]
    have hno : ∀ q, .fin q ∈ A → q = 0 := by
      intro q hq
      by_contra h0
      have := (hmem _).2 ⟨q, hq, h0, rfl⟩
      rw [he] at this
      simp at this
    constructor
    · intro h; cases h
    · rintro (⟨q, hq, h0, _⟩ | ⟨q, r, _, hr, h0, _⟩)
      · exact absurd (hno q hq) h0
      · exact absurd (hno r hr) h0
  · rw [if_neg he]
    obtain ⟨mn1, mn2⟩ := C14_amin_float f he hfn
    obtain ⟨mx1, mx2⟩ := C14_amax_float f he hfn
    obtain ⟨a, ha, ha0, ea⟩ := (hmem _).1 mn1
    obtain ⟨b, hb, hb0, eb⟩ := (hmem _).1 mx1
    have hle1 : ∀ q, .fin q ∈ A → q ≠ 0 → |a| ≤ |q| := by
      intro q hq h0
      have := mn2 _ ((hmem _).2 ⟨q, hq, h0, rfl⟩)
      rw [ea] at this
      simpa [Fl.le] using this
    have hle2 : ∀ q, .fin q ∈ A → q ≠ 0 → |q| ≤ |b| := by
      intro q hq h0
      have := mx2 _ ((hmem _).2 ⟨q, hq, h0, rfl⟩)
      rw [eb] at this
      simpa [Fl.le] using this
    have hpa : 0 < |a| := abs_pos.mpr ha0
    have hdiv : Fl.div (.fin |b|) (.fin |a|) = .fin (|b| / |a|) := by
      simp [Fl.div, ha0]
    rw [ea, eb, hdiv, Bool.or_eq_true]
    rw [show binary64.round (.fin (|b| / |a|)) = binary64.ofRat (|b| / |a|) from rfl,
      lt_1000_ofRat (by positivity)]
    simp only [Fl.lt, decide_eq_true_eq]
    constructor
    · rintro (h | h)
      · exact Or.inl ⟨a, ha, ha0, h⟩
      · exact Or.inr ⟨b, a, hb, ha, ha0, h⟩
    · rintro (⟨q, hq, h0, h⟩ | ⟨q, r, hq, hr, h0, h⟩)
      · exact Or.inl (lt_of_le_of_lt (hle1 q hq h0) h)
      · right
        refine lt_of_lt_of_le h (binary64.rnd_mono ?_)
        have hq0 : q ≠ 0 := by
          rintro rfl
          rw [abs_zero, zero_div] at h
          have : binary64.rnd 0 = 0 := by simp [Fmt.rnd]
          rw [this] at h
          norm_num at h
        exact div_le_div₀ (abs_nonneg b) (hle2 q hq hq0) hpa (hle1 r hr h0)

/-- Satisfiable, and both outcomes occur. -/
example : useScientificFl [.fin 1, .inf true, .fin (-999)] = false ∧
    useScientificFl [.fin 1, .fin 0, .fin (-1001)] = true := by decide +kernel

/-- C98, arrays: the whole output for an array of at most `threshold` finite numbers: all fields in order
between brackets, every field reads back as its element rounded to the precision in the one notation chosen
for the array. -/
theorem C98_array (lo : PrintOpts) (o : FmtOpts) (h0 : '\x00' ∉ lo.separator) (hp : 1 ≤ o.precision)
    (suppress : Bool) (A : List ℚ) (hne : A ≠ []) (hA : A.length ≤ lo.threshold) :
    ∃ (fixed : Bool) (bs : List Bool) (text : ℚ → List Char),
      (fixed = true ↔ suppress = true ∨ useScientificFl (A.map Fl.fin) = false) ∧
      bs.length = A.length ∧
      printReals lo o suppress (A.map Fl.fin) =
        .ok ('[' :: joinBreaks lo.separator (bs.zip (A.map text)) ++ "]\n".toList) ∧
      ∀ q ∈ A, ∃ v b, PrintsAs fixed o.precision q v ∧
        scanNum (text q) = some (.fin v, List.replicate b ' ') ∧ 12 ≤ (text q).length := by
  obtain ⟨fixed, bs, h1, h2, h3⟩ := C68_full_partial lo h0 suppress useScientificFl (rawReal o)
    (A := A.map Fl.fin) (by simpa using hne) (by simpa using hA)
  refine ⟨fixed, bs, fun q => fmterStr fixed (rawReal o fixed (.fin q)), h1, by simpa using h2, ?_, ?_⟩
  · unfold printReals
    rw [h3, List.map_map]
    rfl
  · intro q _
    exact C98_real o fixed q (fun _ => hp)

/-- The text of a complex number: real part, sign, magnitude of the imaginary part, `j`; the real part is
aligned in twelve characters (fifteen in scientific notation). -/
def Spec.complexText (o : FmtOpts) (fixed : Bool) (a b : ℚ) : List Char :=
  List.replicate ((if fixed then 12 else 15) - (numText fixed o.precision a).length) ' ' ++
    (numText fixed o.precision a ++ (if b < 0 then '-' else '+') ::
      (numText fixed o.precision |b| ++ ['j']))

theorem rawComplex_text (o : FmtOpts) (fixed : Bool) (a b : ℚ) :
    fmterStr fixed (rawComplex o fixed (.fin a, .fin b)) = Spec.complexText o fixed a b := by
  have hneg : isNegative (.fin b) = decide (b < 0) := rfl
  have hw : (Ss.reset (widthComplex fixed)).width = if fixed then 12 else 15 := by cases fixed <;> rfl
  have htext : rawComplex o fixed (.fin a, .fin b) = Spec.complexText o fixed a b := by
    unfold Spec.complexText
    rw [← hw]
    by_cases hb : b < 0
    · have : numText fixed o.precision (-b) = numText fixed o.precision |b| := by rw [abs_of_neg hb]
      simp [rawComplex, putComplex, hneg, hb, putScalar, Ss.put, Fl.neg, this, Ss.reset]
    · have : numText fixed o.precision b = numText fixed o.precision |b| := by
        rw [abs_of_nonneg (not_lt.1 hb)]
      simp [rawComplex, putComplex, hneg, hb, putScalar, Ss.put, this, Ss.reset]
  rw [htext, fmterStr_id]
  unfold Spec.complexText
  refine getLast_pad _ _ ?_
  rw [← List.cons_append, ← List.append_assoc, List.getLast?_append]
  simp

/-- C98, complex arrays: the whole output for at most `threshold` complex numbers, all in one notation,
which is scientific (unless suppressed) exactly when the real parts or the imaginary parts ask for it. -/
theorem C98_complex_array (lo : PrintOpts) (o : FmtOpts) (h0 : '\x00' ∉ lo.separator)
    (suppress : Bool) (A : List (ℚ × ℚ)) (hne : A ≠ []) (hA : A.length ≤ lo.threshold) :
    ∃ (fixed : Bool) (bs : List Bool),
      (fixed = true ↔ suppress = true ∨
        (useScientificFl (A.map fun z => Fl.fin z.1) = false ∧
          useScientificFl (A.map fun z => Fl.fin z.2) = false)) ∧
      bs.length = A.length ∧
      printComplexes lo o suppress (A.map fun z => (Fl.fin z.1, Fl.fin z.2)) =
        .ok ('[' :: joinBreaks lo.separator
          (bs.zip (A.map fun z => Spec.complexText o fixed z.1 z.2)) ++ "]\n".toList) := by
  obtain ⟨fixed, bs, h1, h2, h3⟩ := C68_full_partial lo h0 suppress useScientificC (rawComplex o)
    (A := A.map fun z => (Fl.fin z.1, Fl.fin z.2)) (by simpa using hne) (by simpa using hA)
  refine ⟨fixed, bs, ?_, by simpa using h2, ?_⟩
  · rw [h1]
    unfold useScientificC
    simp only [List.map_map, Function.comp_def, Bool.or_eq_false_iff]
  · unfold printComplexes
    rw [h3, List.map_map]
    congr 5
    exact List.map_congr_left fun z _ => rawComplex_text o fixed z.1 z.2

/-- Satisfiable: the imaginary parts alone can ask for scientific notation. -/
example : printComplexes {} { precision := 2 } false [(.fin 1, .fin (-1)), (.fin 2, .fin 2000)] =
    .ok "[       1.00e+00-1.00e+00j        2.00e+00+2.00e+03j]\n".toList := by decide +kernel

/-- C98, arrays of tuples and pairs: the whole output for at most `threshold` of them: all components of
all elements in order; the notation is scientific unless suppressed. -/
theorem C98_tuple_array (lo : PrintOpts) (o : FmtOpts) (h0 : '\x00' ∉ lo.separator)
    (suppress isPair : Bool) (A : List (List Fl)) (hne : A ≠ []) (hA : A.length ≤ lo.threshold)
    (ht : ∀ t ∈ A, t ≠ []) :
    ∃ bs : List Bool, bs.length = A.length ∧
      printTuples lo o suppress isPair A =
        .ok ('[' :: joinBreaks lo.separator
          (bs.zip (A.map fun t => List.replicate (if isPair then 11 else 0) ' ' ++
            '(' :: (", ".toList.intercalate (t.map (component o suppress)) ++ [')']))) ++ "]\n".toList) := by
  obtain ⟨fixed, bs, h1, h2, h3⟩ := C68_full_partial lo h0 suppress (fun _ => true) (rawTuple o isPair)
    (A := A) hne hA
  have hf : fixed = suppress := by
    cases fixed <;> cases suppress <;> simp_all
  subst hf
  refine ⟨bs, h2, ?_⟩
  unfold printTuples
  rw [h3]
  congr 5
  exact List.map_congr_left fun t h => (C98_tuple o isPair fixed t (ht t h)).1

/-- Satisfiable: triples with a NaN. -/
example : printTuples {} { precision := 1 } true false [[.fin 1, .nan], [.fin (-25 / 10), .inf true]] =
    .ok "[(1.0, nan) (-2.5, -inf)]\n".toList := by decide +kernel

/-- C98, single numbers: `print` of a finite number shows it in scientific notation with eight decimals, in
twelve characters or more, on a line of its own; of NaN and of the infinities it reads options that have
been destroyed. -/
theorem C98_scalar (x : Fl) :
    (∀ q, x = .fin q → ∃ v text, PrintsAs false 8 q v ∧ scanNum text = some (.fin v, []) ∧
      12 ≤ text.length ∧ printNumber x = .ok (text ++ ['\n'])) ∧
    ((x = .nan ∨ ∃ b, x = .inf b) ↔ printNumber x = .ub) := by
  constructor
  · rintro q rfl
    obtain ⟨v, b, h1, h2, h3⟩ := C98_real {} false q (by simp)
    refine ⟨v, _, h1, ?_, h3, rfl⟩
    have := scanNum_numText false 8 q [] (ends_blanks 0)
    rw [List.append_nil] at this
    have h4 : scanNum (fmterStr false (rawReal {} false (.fin q))) =
        some (.fin (numVal false 8 q), []) := by
      show scanNum (rawReal {} false (.fin q)) = _
      rw [rawReal_fin, scanNum_blanks]
      exact this
    rw [h4] at h2
    simp only [Option.some.injEq, Prod.mk.injEq] at h2
    rw [h4, h2.1]
  · cases x <;> simp [printNumber, printScalar, Fl.isNan, Fl.isInf]

/-! ### Where the property fails -/

/-- C98 (negations): with precision 0 in fixed notation zeros of the integer part are blanked, 1200 is
printed as 12; `-inf` is printed in fifteen columns where all other elements take twelve; an array that
starts with NaN is never printed in scientific notation, so that 1e-10 is shown as 0. -/
theorem C98_defects_false :
    (fmterStr true (rawReal { precision := 0 } true (.fin 1200)) = "        12  ".toList ∧
      scanNum (fmterStr true (rawReal { precision := 0 } true (.fin 1200))) = some (.fin 12, "  ".toList)) ∧
    ((fmterStr true (rawReal {} true (.inf true))).length = 15 ∧
      (fmterStr true (rawReal {} true (.inf false))).length = 12) ∧
    (useScientificFl [.fin (1 / 10 ^ 10), .nan] = true ∧
      useScientificFl [.nan, .fin (1 / 10 ^ 10)] = false ∧
      printReals {} {} false [.nan, .fin (1 / 10 ^ 10)] = .ok "[         nan   0.        ]\n".toList) := by
  refine ⟨⟨?_, ?_⟩, ⟨?_, ?_⟩, ?_, ?_, ?_⟩
  all_goals decide +kernel

end SciCpp
