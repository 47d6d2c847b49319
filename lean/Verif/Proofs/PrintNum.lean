import Verif.Model.PrintNum
import Verif.Proofs.FloatText
/-
  Reading back the numbers printed by the element formatter.
-/
namespace SciCpp
open Spec

theorem padN_length (p n : ℕ) : (padN p n).length = p := by
  induction p generalizing n with
  | zero => rfl
  | succ p ih => simp [padN, ih]

theorem padN_dig (p n : ℕ) : ∀ ch ∈ padN p n, isDig ch = true := by
  induction p generalizing n with
  | zero => simp [padN]
  | succ p ih =>
    intro ch hch
    rcases List.mem_append.1 hch with h | h
    · exact ih _ ch h
    · rw [List.mem_singleton.1 h]; exact isDig_ofNat (Nat.mod_lt _ (by norm_num))

theorem readDigits_padN (p n : ℕ) : readDigits (padN p n) (n / 10 ^ p) = n := by
  induction p generalizing n with
  | zero => simp [padN, readDigits]
  | succ p ih =>
    have h1 : n / 10 ^ (p + 1) = n / 10 / 10 ^ p := by
      rw [Nat.div_div_eq_div_mul, ← pow_succ']
    rw [padN, readDigits_append' _ _ (padN_dig _ _), h1, ih]
    show (match digitVal (Char.ofNat (48 + n % 10)) with
      | some v => readDigits [] (10 * (n / 10) + v)
      | none => n / 10) = n
    rw [digitVal_ofNat (Nat.mod_lt _ (by norm_num))]
    show 10 * (n / 10) + n % 10 = n
    omega

theorem scanExp_expText_tail (X : ℤ) (tail : List Char) (ht : tail.takeWhile isDig = []) :
    scanExp ('e' :: (expText X ++ tail)) = (X, tail) := by
  have hd : ∀ ds : List Char, (∀ ch ∈ ds, isDig ch = true) → ds ≠ [] → readDigits ds 0 = X.natAbs →
      scanExp ('e' :: (if X < 0 then '-' else '+') :: (ds ++ tail)) = (X, tail) := by
    intro ds h1 h2 h3
    obtain ⟨e1, e2⟩ := takeWhile_dig (b := tail) h1 ht
    simp only [scanExp, true_or, if_true]
    by_cases hX : X < 0
    · simp only [hX, if_true, List.head?_cons, true_or, List.tail_cons, e1, e2, h3]
      rw [if_neg h2]
      congr 1; omega
    · simp only [hX, if_false, List.head?_cons, or_true, if_true, List.tail_cons, e1, e2, h3]
      rw [if_neg h2]
      have : ¬ (some '+' = some '-') := by decide
      rw [if_neg this]
      congr 1; omega
  unfold expText
  by_cases h : X.natAbs < 10
  · rw [if_pos h]
    refine hd ('0' :: printNat X.natAbs) ?_ (by simp) ?_
    · intro ch hch
      rcases List.mem_cons.1 hch with rfl | hch
      · decide
      · exact isDig_printNat _ ch hch
    · show readDigits (printNat X.natAbs) (10 * 0 + 0) = _
      rw [show 10 * 0 + 0 = 0 from rfl]
      exact readDigits_printNat _
  · rw [if_neg h]
    exact hd _ (isDig_printNat _) (printNat_ne_nil _) (readDigits_printNat _)

/-- Blanks before a number are skipped. -/
theorem scanNum_blanks (a : ℕ) (s : List Char) : scanNum (List.replicate a ' ' ++ s) = scanNum s := by
  induction a with
  | zero => rfl
  | succ a ih =>
    rw [← ih, List.replicate_succ, List.cons_append]
    unfold scanNum
    rw [List.dropWhile_cons_of_pos (by decide)]

/-- The value of a magnitude printed in fixed or scientific notation. -/
def magVal (fixed : Bool) (p : ℕ) (q : ℚ) : ℚ :=
  if fixed then (nearestEven (q * 10 ^ p) : ℚ) / 10 ^ p
  else if q = 0 then 0 else decVal (p + 1) (decRound (p + 1) q)

/-- The tail does not continue a number. -/
def EndsNumber (tail : List Char) : Prop :=
  tail.takeWhile isDig = [] ∧ tail.head? ≠ some '.' ∧ scanExp tail = (0, tail)

theorem nearestEven_nonneg {x : ℚ} (h : 0 ≤ x) : 0 ≤ nearestEven x := by
  have := nearestEven_mono (show (((0 : ℤ) : ℚ)) ≤ x by push_cast; exact h)
  rwa [nearestEven_int] at this

theorem scanDec_fixed (p : ℕ) (q : ℚ) (hq : 0 ≤ q) (tail : List Char) (ht : EndsNumber tail) :
    scanDec (fixedText p q ++ tail) = some (magVal true p q, tail) := by
  obtain ⟨n, hn⟩ := Int.eq_ofNat_of_zero_le (nearestEven_nonneg (mul_nonneg hq (by positivity : (0 : ℚ) ≤ 10 ^ p)))
  unfold fixedText magVal
  simp only [hn, Int.toNat_natCast, if_true]
  rw [scanDec_join _ _ tail (isDig_printNat _) (printNat_ne_nil _) (padN_dig p n) ht.1 ht.2.1, ht.2.2,
    readDigits_append' _ _ (isDig_printNat _), readDigits_printNat, readDigits_padN, padN_length]
  congr 2
  rw [zero_sub, zpow_neg, zpow_natCast, Int.cast_natCast, div_eq_mul_inv]

theorem scanDec_sci (p : ℕ) (q : ℚ) (hq : 0 ≤ q) (tail : List Char) (ht : tail.takeWhile isDig = []) :
    scanDec (sciText p q ++ tail) = some (magVal false p q, tail) := by
  have ht' : ∀ X, (('e' :: expText X) ++ tail).takeWhile isDig = [] := fun X => by
    rw [List.cons_append, List.takeWhile_cons_of_neg (by decide)]
  unfold sciText magVal
  by_cases h0 : q = 0
  · simp only [h0, if_true, Bool.false_eq_true, if_false]
    rw [List.append_assoc, scanDec_join _ _ _ (by intro ch h; rw [List.mem_singleton.1 h]; decide) (by simp)
      (by intro ch h; rw [List.eq_of_mem_replicate h]; decide) (ht' 0) (by simp), List.cons_append (a := 'e'),
      scanExp_expText_tail 0 tail ht]
    congr 2
    have : readDigits (['0'] ++ List.replicate p '0') 0 = 0 := by
      rw [show ['0'] ++ List.replicate p '0' = List.replicate (p + 1) '0' ++ [] by
        rw [List.append_nil, List.replicate_succ]; rfl, readDigits_zeros]
      rfl
    rw [this]; simp
  · simp only [h0, Bool.false_eq_true, if_false]
    obtain ⟨s1, s2, _⟩ := decRound_spec (p + 1) (by omega) q (lt_of_le_of_ne hq (Ne.symm h0))
    set r := decRound (p + 1) q with hr
    have hlen : (printNat r.1).length = p + 1 := length_printNat (p + 1) r.1 (by omega) (Or.inl s1) s2
    have hdig := isDig_printNat r.1
    have htd : ∀ ch ∈ (printNat r.1).take 1, isDig ch = true := fun ch h => hdig ch (List.mem_of_mem_take h)
    have hdd : ∀ ch ∈ (printNat r.1).drop 1, isDig ch = true := fun ch h => hdig ch (List.mem_of_mem_drop h)
    rw [List.append_assoc, scanDec_join _ _ _ htd (by
        intro h
        have := congrArg List.length h
        rw [List.length_take, hlen] at this
        simp at this) hdd (ht' r.2) (by simp), List.cons_append (a := 'e'), scanExp_expText_tail r.2 tail ht]
    congr 2
    simp only
    rw [List.take_append_drop, readDigits_printNat, List.length_drop, hlen]
    unfold decVal
    congr 2; push_cast; ring

/-- A magnitude starts with a digit. -/
theorem mag_head (fixed : Bool) (p : ℕ) (q : ℚ) :
    ∃ c t, (if fixed then fixedText p q else sciText p q) = c :: t ∧ isDig c = true := by
  have hf : ∀ (n : ℕ) (fp : List Char), ∃ c t, joinFrac (printNat n) fp = c :: t ∧ isDig c = true := by
    intro n fp
    obtain ⟨c, t, e⟩ := List.exists_cons_of_ne_nil (printNat_ne_nil n)
    rw [e, joinFrac_head]
    exact ⟨c, _, rfl, isDig_printNat n c (by rw [e]; simp)⟩
  cases fixed
  · simp only [Bool.false_eq_true, if_false]
    unfold sciText
    split_ifs
    · rw [joinFrac_head]; exact ⟨'0', _, rfl, by decide⟩
    · obtain ⟨c, t, e⟩ := List.exists_cons_of_ne_nil (printNat_ne_nil (decRound (p + 1) q).1)
      simp only [e, List.take_succ_cons, joinFrac_head]
      exact ⟨c, _, rfl, isDig_printNat _ c (by rw [e]; simp)⟩
  · simp only [if_true]
    exact hf _ _

/-- The value of a printed number. -/
def numVal (fixed : Bool) (p : ℕ) (q : ℚ) : ℚ := if q < 0 then -magVal fixed p |q| else magVal fixed p |q|

theorem scanNum_numText (fixed : Bool) (p : ℕ) (q : ℚ) (tail : List Char) (ht : EndsNumber tail) :
    scanNum (numText fixed p q ++ tail) = some (.fin (numVal fixed p q), tail) := by
  obtain ⟨c, t, e, hc⟩ := mag_head fixed p |q|
  have hs : scanDec (c :: (t ++ tail)) = some (magVal fixed p |q|, tail) := by
    rw [← List.cons_append, ← e]
    cases fixed
    · exact scanDec_sci p |q| (abs_nonneg q) tail ht.1
    · exact scanDec_fixed p |q| (abs_nonneg q) tail ht
  obtain ⟨a, b⟩ := scanNum_dig c (t ++ tail) hc
  unfold numText numVal
  rw [e]
  by_cases hq : q < 0
  · simp only [hq, if_true, List.cons_append, List.nil_append, b, hs]
    rfl
  · simp only [hq, if_false, List.nil_append, List.cons_append, a, hs]
    rfl

theorem numVal_prints (fixed : Bool) (p : ℕ) (q : ℚ) : PrintsAs fixed p q (numVal fixed p q) := by
  unfold PrintsAs numVal magVal
  cases fixed
  · simp only [Bool.false_eq_true, if_false]
    split_ifs with hn h0 h0
    · rw [abs_eq_zero] at h0; linarith
    · rw [abs_of_neg hn]
      have := nearest_neg (decRound_nearest (p + 1) (by omega) (-q) (by linarith))
      rwa [neg_neg] at this
    · rw [abs_eq_zero] at h0; subst h0
      exact ⟨⟨0, 0, by simp, by simp⟩, fun d' _ => by simp⟩
    · have hq : 0 < q := lt_of_le_of_ne (not_lt.1 hn) (fun h => h0 (by rw [← h, abs_zero]))
      rw [abs_of_pos hq]
      exact decRound_nearest (p + 1) (by omega) q hq
  · simp only [if_true]
    have hp : (0 : ℚ) < 10 ^ p := by positivity
    have key : ∀ r : ℚ, |(nearestEven (r * 10 ^ p) : ℚ) / 10 ^ p - r| ≤ 1 / (2 * 10 ^ p) := by
      intro r
      have h := nearestEven_err (r * 10 ^ p)
      have e : (nearestEven (r * 10 ^ p) : ℚ) / 10 ^ p - r =
          ((nearestEven (r * 10 ^ p) : ℚ) - r * 10 ^ p) / 10 ^ p := by field_simp
      rw [e, abs_div, abs_of_pos hp, div_le_div_iff₀ hp (by positivity)]
      generalize |(nearestEven (r * 10 ^ p) : ℚ) - r * 10 ^ p| = w at h ⊢
      nlinarith
    split_ifs with hn
    · rw [abs_of_neg hn]
      refine ⟨⟨-nearestEven (-q * 10 ^ p), by push_cast; ring⟩, ?_⟩
      have := key (-q)
      rw [show -((nearestEven (-q * 10 ^ p) : ℚ) / 10 ^ p) - q =
        -((nearestEven (-q * 10 ^ p) : ℚ) / 10 ^ p - -q) by ring, abs_neg]
      exact this
    · rw [abs_of_nonneg (not_lt.1 hn)]
      exact ⟨⟨nearestEven (q * 10 ^ p), rfl⟩, key q⟩

end SciCpp
