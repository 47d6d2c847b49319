import Verif.Model.IntPoly
import Verif.Props.IntRed
import Verif.Props.Poly
import Verif.Proofs.Convolve
import Verif.Props.FloatSign
/-
  Property theorems C110: polynomials and convolutions with signed integer coefficients.
-/
namespace SciCpp
open Spec Finset

/-! ### Specification -/

/-- Value of the polynomial with coefficients `P` (constant term first). -/
def Spec.valueZ (x : ℤ) (P : List ℤ) : ℤ := ∑ i ∈ range P.length, P.getD i 0 * x ^ i

/-- The products added up for coefficient `k` of the product of `a` and `v`, in order. -/
def Spec.convTerms (a v : List ℤ) (k : ℕ) : List ℤ :=
  ((List.range (k + 1)).filter fun j => decide (j < a.length ∧ k - j < v.length)).map
    fun j => a.getD j 0 * v.getD (k - j) 0

variable {lo hi : ℤ}

/-! ### polyval -/

theorem valueZ_cons (x c : ℤ) (P : List ℤ) : valueZ x (c :: P) = valueZ x P * x + c := by
  unfold valueZ
  rw [List.length_cons, sum_range_succ', sum_mul]
  simp only [List.getD_cons_succ, List.getD_cons_zero, pow_zero, mul_one]
  congr 1
  refine sum_congr rfl fun i _ => by ring

theorem rnd64_intCast (n : ℤ) (h : |n| < 2 ^ 53) : rnd64 (n : ℚ) = n := by
  have := rnd64_exact n 0 h
  simpa using this

theorem truncK_int (n : ℤ) : truncK (n : ℚ) = n := by
  unfold truncK; split_ifs <;> simp

theorem rnd64_large (n : ℤ) (h : 2 ^ 53 ≤ |n|) : 2 ^ 53 ≤ |truncK (rnd64 (n : ℚ))| := by
  have pos : ∀ n : ℤ, 2 ^ 53 ≤ n → 2 ^ 53 ≤ truncK (rnd64 (n : ℚ)) := by
    intro n h
    have h1 : ((2 : ℚ) ^ 53) ≤ n := by exact_mod_cast h
    have h2 : rnd64 ((2 : ℚ) ^ 53) = 2 ^ 53 := by decide +kernel
    have h3 := rnd64_mono h1
    rw [h2] at h3
    unfold truncK
    rw [if_pos (le_trans (by positivity) h3)]
    exact Int.le_floor.2 (by push_cast; exact h3)
  rcases le_total 0 n with hn | hn
  · rw [abs_of_nonneg hn] at h
    exact (pos n h).trans (le_abs_self _)
  · rw [abs_of_nonpos hn] at h
    have h1 := pos (-n) h
    have h2 : truncK (rnd64 (((-n : ℤ)) : ℚ)) = - truncK (rnd64 (n : ℚ)) := by
      push_cast
      rw [rnd64_neg]
      unfold truncK
      rcases lt_trichotomy (rnd64 (n : ℚ)) 0 with h | h | h
      · rw [if_pos (by linarith), if_neg (by linarith), Int.floor_neg]
      · rw [h]; simp
      · rw [if_neg (by linarith), if_pos h.le, Int.ceil_neg]
    rw [h2] at h1
    exact h1.trans (neg_le_abs _)

/-- The step of `polyval` on integers below 2^53 is exact or undefined. -/
theorem fmaInt_small (hlo : -2 ^ 53 < lo) (hhi : hi < 2 ^ 53) (a b c : ℤ) (ha : Repr' lo hi a) (hb : Repr' lo hi b)
    (hc : Repr' lo hi c) : fmaInt lo hi (CInt.of a) (CInt.of b) (CInt.of c) = ⟨chk lo hi (a * b + c)⟩ := by
  have r : ∀ n : ℤ, Repr' lo hi n → rnd64 (n : ℚ) = n := fun n hn =>
    rnd64_intCast n (abs_lt.2 ⟨by have := hn.1; omega, by have := hn.2; omega⟩)
  show (⟨chk lo hi (truncK (rnd64 (rnd64 (a : ℚ) * rnd64 (b : ℚ) + rnd64 (c : ℚ))))⟩ : CInt lo hi) = _
  rw [r a ha, r b hb, r c hc]
  have e : (a : ℚ) * b + c = ((a * b + c : ℤ) : ℚ) := by push_cast; ring
  rw [e]
  rcases lt_or_ge |a * b + c| (2 ^ 53) with h | h
  · rw [rnd64_intCast _ h, truncK_int]
  · have h1 := rnd64_large _ h
    have n1 : ¬ (lo ≤ a * b + c ∧ a * b + c ≤ hi) := by
      rintro ⟨u1, u2⟩; have : |a * b + c| < 2 ^ 53 := abs_lt.2 ⟨by omega, by omega⟩; omega
    have n2 : ¬ (lo ≤ truncK (rnd64 ((a * b + c : ℤ) : ℚ)) ∧ truncK (rnd64 ((a * b + c : ℤ) : ℚ)) ≤ hi) := by
      rintro ⟨u1, u2⟩
      have : |truncK (rnd64 ((a * b + c : ℤ) : ℚ))| < 2 ^ 53 := abs_lt.2 ⟨by omega, by omega⟩
      omega
    unfold chk
    rw [if_neg n1, if_neg n2]

theorem polyvalWith_cons (f : CInt lo hi → CInt lo hi → CInt lo hi → CInt lo hi) (x c : CInt lo hi)
    (P : List (CInt lo hi)) : polyvalWith f x (c :: P) = f (polyvalWith f x P) x c := by
  unfold polyvalWith
  rw [List.reverse_cons, List.foldl_append]
  rfl

/-- C110, polyval: for integers of at most 53 bits (`int` and narrower), `polyval(x, P)` is defined exactly when the
value of every tail of the polynomial (every Horner step) is representable, and then it is the exact value. -/
theorem C110_polyval (h0 : Repr' lo hi 0) (hlo : -2 ^ 53 < lo) (hhi : hi < 2 ^ 53) (x : ℤ) (hx : Repr' lo hi x)
    (P : List ℤ) (hP : ∀ c ∈ P, Repr' lo hi c) (s : ℤ) :
    polyvalInt lo hi x P = .ok s ↔ (∀ Q, Q <:+ P → Repr' lo hi (valueZ x Q)) ∧ s = valueZ x P := by
  induction P generalizing s with
  | nil =>
    have : valueZ x [] = 0 := rfl
    show (Res.ok 0 = Res.ok s) ↔ _
    constructor
    · intro h
      refine ⟨fun Q hQ => ?_, ?_⟩
      · rw [List.suffix_nil.1 hQ, this]; exact h0
      · injection h with h; rw [← h, this]
    · rintro ⟨-, h⟩; rw [h, this]
  | cons c P ih =>
    have hc := hP c (by simp)
    have ih := ih fun d hd => hP d (by simp [hd])
    unfold polyvalInt at ih ⊢
    rw [show ints lo hi (c :: P) = CInt.of c :: ints lo hi P from rfl, polyvalWith_cons]
    rcases hv : (polyvalWith (fmaInt lo hi) (CInt.of x) (ints lo hi P)) with ⟨_ | _⟩
    · rename_i t
      have ht := (ih t).1 (by rw [hv])
      have hr := ht.1 P (List.suffix_refl _)
      rw [← ht.2] at hr
      rw [show (⟨.ok t⟩ : CInt lo hi) = CInt.of t from rfl, fmaInt_small hlo hhi t x c hr hx hc, chk_ok, valueZ_cons,
        ← ht.2]
      constructor
      · rintro ⟨h1, rfl⟩
        refine ⟨fun Q hQ => ?_, rfl⟩
        rcases List.suffix_cons_iff.1 hQ with rfl | hQ
        · rw [valueZ_cons, ← ht.2]; exact h1
        · exact ht.1 Q hQ
      · rintro ⟨h1, rfl⟩
        have := h1 (c :: P) (List.suffix_refl _)
        rw [valueZ_cons, ← ht.2] at this
        exact ⟨this, rfl⟩
    · constructor
      · intro h; cases h
      · rintro ⟨h1, -⟩
        have := (ih (valueZ x P)).2 ⟨fun Q hQ => h1 Q (hQ.trans (List.suffix_cons _ _)), rfl⟩
        rw [hv] at this
        cases this

/-- C110, polyval of 64-bit integers: exact when the point, the coefficients and the values of the tails are below
2^53 in absolute value (what is missing: they are not exact otherwise, `C110_polyval_false`). -/
theorem C110_polyval_64_partial (hlo : lo ≤ -2 ^ 53) (hhi : 2 ^ 53 ≤ hi) (x : ℤ) (hx : |x| < 2 ^ 53)
    (P : List ℤ) (hP : ∀ c ∈ P, |c| < 2 ^ 53) (hv : ∀ Q, Q <:+ P → |valueZ x Q| < 2 ^ 53) :
    polyvalInt lo hi x P = .ok (valueZ x P) := by
  have key : polyvalWith (fmaInt lo hi) (CInt.of x) (ints lo hi P) = CInt.of (valueZ x P) := by
    induction P with
    | nil => rfl
    | cons c P ih =>
      rw [show ints lo hi (c :: P) = CInt.of c :: ints lo hi P from rfl, polyvalWith_cons,
        ih (fun d hd => hP d (by simp [hd])) fun Q hQ => hv Q (hQ.trans (List.suffix_cons _ _))]
      have h1 := hv P (List.suffix_cons _ _)
      have h2 := hv (c :: P) (List.suffix_refl _)
      rw [valueZ_cons] at h2 ⊢
      show (⟨chk lo hi (truncK (rnd64 (rnd64 (valueZ x P : ℚ) * rnd64 (x : ℚ) + rnd64 (c : ℚ))))⟩ : CInt lo hi) = _
      rw [rnd64_intCast _ h1, rnd64_intCast _ hx, rnd64_intCast c (hP c (by simp)),
        show (valueZ x P : ℚ) * x + c = ((valueZ x P * x + c : ℤ) : ℚ) by push_cast; ring, rnd64_intCast _ h2,
        truncK_int]
      have h3 := abs_lt.1 h2
      rw [chk_ok.2 ⟨⟨by omega, by omega⟩, rfl⟩]
      rfl
  unfold polyvalInt
  rw [key]
  rfl

/-- C110, polyval of 64-bit integers: a constant polynomial is evaluated to its coefficient rounded to `double`:
2^53 + 1 gives 2^53, and the largest integer is undefined behaviour. -/
theorem C110_polyval_false :
    (∀ x c s : ℤ, polyvalInt lo hi x [c] = .ok s ↔
      Repr' lo hi (truncK (rnd64 (c : ℚ))) ∧ s = truncK (rnd64 (c : ℚ))) ∧
    (∀ x : ℤ, polyvalInt (-2 ^ 63) (2 ^ 63 - 1) x [2 ^ 53 + 1] = .ok (2 ^ 53)) ∧
    (∀ x : ℤ, polyvalInt (-2 ^ 63) (2 ^ 63 - 1) x [2 ^ 63 - 1] = .ub) := by
  have key : ∀ (lo hi x c : ℤ), polyvalInt lo hi x [c] = chk lo hi (truncK (rnd64 (c : ℚ))) := by
    intro lo hi x c
    show chk lo hi (truncK (rnd64 (rnd64 ((0 : ℤ) : ℚ) * rnd64 (x : ℚ) + rnd64 (c : ℚ)))) = _
    rw [Int.cast_zero, rnd64_zero, zero_mul, zero_add, rnd64_idem]
  refine ⟨fun x c s => by rw [key, chk_ok], fun x => ?_, fun x => ?_⟩
  · rw [key]; decide +kernel
  · rw [key]; decide +kernel

/-! ### polyadd, polysub -/

/-- Collecting checked results. -/
theorem collect_chk (l r : List ℤ) :
    CInt.collect (l.map fun n => (⟨chk lo hi n⟩ : CInt lo hi)) = .ok r ↔ (∀ n ∈ l, Repr' lo hi n) ∧ r = l := by
  induction l generalizing r with
  | nil => simp [CInt.collect, eq_comm]
  | cons n l ih =>
    simp only [List.map_cons, CInt.collect, Res.bind_eq_ok', chk_ok, ih, List.mem_cons, forall_eq_or_imp]
    constructor
    · rintro ⟨a, ⟨h1, rfl⟩, as, ⟨h2, rfl⟩, h3⟩
      injection h3 with h3
      exact ⟨⟨h1, h2⟩, h3.symm⟩
    · rintro ⟨⟨h1, h2⟩, rfl⟩
      exact ⟨n, ⟨h1, rfl⟩, l, ⟨h2, rfl⟩, rfl⟩

theorem of_eq_chk {n : ℤ} (h : Repr' lo hi n) : (CInt.of n : CInt lo hi) = ⟨chk lo hi n⟩ := by
  rw [chk_ok.2 ⟨h, rfl⟩]; rfl

theorem ints_eq_chk {l : List ℤ} (h : ∀ n ∈ l, Repr' lo hi n) :
    ints lo hi l = l.map fun n => (⟨chk lo hi n⟩ : CInt lo hi) :=
  List.map_congr_left fun n hn => of_eq_chk (h n hn)

/-- C110, polyadd: defined exactly when every sum of coefficients is representable, and then exact. -/
theorem C110_polyadd (P Q r : List ℤ) (hP : ∀ c ∈ P, Repr' lo hi c) (hQ : ∀ c ∈ Q, Repr' lo hi c) :
    polyaddInt lo hi P Q = .ok r ↔
      r.length = max P.length Q.length ∧ ∀ i (h : i < r.length), r[i] = P.getD i 0 + Q.getD i 0 ∧ Repr' lo hi r[i] := by
  have key : polyadd (ints lo hi P) (ints lo hi Q) = (polyadd P Q).map fun n => (⟨chk lo hi n⟩ : CInt lo hi) := by
    have hz : ∀ P Q : List ℤ, List.zipWith (· + ·) (ints lo hi P) (ints lo hi Q) =
        (List.zipWith (· + ·) P Q).map fun n => (⟨chk lo hi n⟩ : CInt lo hi) := by
      intro P Q
      unfold ints
      rw [List.zipWith_map, List.map_zipWith]
      rfl
    have hd : ∀ (l : List ℤ) (k : ℕ), (∀ c ∈ l, Repr' lo hi c) → (ints lo hi l).drop k =
        (l.drop k).map fun n => (⟨chk lo hi n⟩ : CInt lo hi) := by
      intro l k hl
      rw [← ints_eq_chk fun n hn => hl n (List.mem_of_mem_drop hn)]
      unfold ints
      rw [List.map_drop]
    unfold polyadd
    simp only [ints, List.length_map]
    split_ifs
    · rw [List.map_append]
      exact congrArg₂ _ (hz P Q) (hd Q _ hQ)
    · rw [List.map_append]
      exact congrArg₂ _ (hz Q P) (hd P _ hP)
  have hl := polyadd_length P Q
  have hc : ∀ i, (polyadd P Q).getD i 0 = P.getD i 0 + Q.getD i 0 := (C55_polyadd P Q 0).2.1
  unfold polyaddInt
  rw [key, collect_chk]
  constructor
  · rintro ⟨h1, rfl⟩
    refine ⟨hl, fun i h => ⟨?_, h1 _ (List.getElem_mem h)⟩⟩
    rw [← hc i, getD_of_lt _ _ h]
  · rintro ⟨h1, h2⟩
    have e : r = polyadd P Q := by
      apply List.ext_getElem (by rw [h1, hl])
      intro i h3 h4
      rw [(h2 i h3).1, ← hc i, getD_of_lt _ _ h4]
    refine ⟨fun n hn => ?_, e⟩
    rw [← e] at hn
    obtain ⟨i, hi', rfl⟩ := List.getElem_of_mem hn
    exact (h2 i hi').2

/-- C110, polysub: defined exactly when every difference of coefficients is representable, and then exact. -/
theorem C110_polysub (P Q r : List ℤ) (hP : ∀ c ∈ P, Repr' lo hi c) :
    polysubInt lo hi P Q = .ok r ↔
      r.length = max P.length Q.length ∧ ∀ i (h : i < r.length), r[i] = P.getD i 0 - Q.getD i 0 ∧ Repr' lo hi r[i] := by
  have key : polysub (ints lo hi P) (ints lo hi Q) = (polysub P Q).map fun n => (⟨chk lo hi n⟩ : CInt lo hi) := by
    unfold polysub
    simp only [ints, List.length_map]
    split_ifs
    · rw [List.map_append]
      refine congrArg₂ _ ?_ ?_
      · rw [List.zipWith_map, List.map_zipWith]; rfl
      · rw [← List.map_drop, List.map_map, List.map_map]; rfl
    · rw [List.map_append]
      refine congrArg₂ _ ?_ ?_
      · rw [List.zipWith_map, List.map_zipWith]; rfl
      · rw [← List.map_drop]
        exact ints_eq_chk fun n hn => hP n (List.mem_of_mem_drop hn)
  have hl := polysub_length P Q
  have hc : ∀ i, (polysub P Q).getD i 0 = P.getD i 0 - Q.getD i 0 := (C55_polysub P Q 0).2.1
  unfold polysubInt
  rw [key, collect_chk]
  constructor
  · rintro ⟨h1, rfl⟩
    refine ⟨hl, fun i h => ⟨?_, h1 _ (List.getElem_mem h)⟩⟩
    rw [← hc i, getD_of_lt _ _ h]
  · rintro ⟨h1, h2⟩
    have e : r = polysub P Q := by
      apply List.ext_getElem (by rw [h1, hl])
      intro i h3 h4
      rw [(h2 i h3).1, ← hc i, getD_of_lt _ _ h4]
    refine ⟨fun n hn => ?_, e⟩
    rw [← e] at hn
    obtain ⟨i, hi', rfl⟩ := List.getElem_of_mem hn
    exact (h2 i hi').2

/-! ### convolve, polymul -/

theorem convTerms_eq (a v : List ℤ) (i : ℕ) (hi' : i + 1 < a.length + v.length) :
    convTerms a v i = (List.range (min (i + 1) a.length - (i + 1 - v.length))).map fun k =>
      a.getD (i + 1 - v.length + k) 0 * v.getD (i - (i + 1 - v.length + k)) 0 := by
  unfold convTerms
  set p := i + 1 - v.length with hp
  set q := min (i + 1) a.length with hq
  have e : List.range (i + 1) = List.range' 0 p ++ List.range' p (q - p) ++ List.range' q (i + 1 - q) := by
    rw [List.range_eq_range', List.append_assoc]
    have h1 := List.range'_append (s := p) (m := q - p) (n := i + 1 - q) (step := 1)
    rw [show p + 1 * (q - p) = q by omega] at h1
    rw [h1]
    have h2 := List.range'_append (s := 0) (m := p) (n := (q - p) + (i + 1 - q)) (step := 1)
    rw [show 0 + 1 * p = p by omega] at h2
    rw [h2]
    congr 1
    omega
  rw [e, List.filter_append, List.filter_append]
  rw [List.filter_eq_nil_iff.2, List.filter_eq_self.2, List.filter_eq_nil_iff.2, List.nil_append, List.append_nil,
    List.range'_eq_map_range, List.map_map]
  · rfl
  · intro j hj
    rw [List.mem_range'_1] at hj
    simp only [decide_eq_true_eq]
    omega
  · intro j hj
    rw [List.mem_range'_1] at hj
    simp only [decide_eq_true_eq]
    omega
  · intro j hj
    rw [List.mem_range'_1] at hj
    simp only [decide_eq_true_eq]
    omega

theorem convTerms_sum (a v : List ℤ) (i : ℕ) (g : ℤ → ℤ) (hg : g 0 = 0) :
    ((convTerms a v i).map g).sum = ∑ p ∈ antidiagonal i, g (a.getD p.1 0 * v.getD p.2 0) := by
  rw [Finset.Nat.sum_antidiagonal_eq_sum_range_succ (fun p q => g (a.getD p 0 * v.getD q 0)) i]
  unfold convTerms
  rw [List.map_map]
  have h1 : ∀ l : List ℕ, ((l.filter fun j => decide (j < a.length ∧ i - j < v.length)).map
      (g ∘ fun j => a.getD j 0 * v.getD (i - j) 0)).sum = (l.map fun j => g (a.getD j 0 * v.getD (i - j) 0)).sum := by
    intro l
    induction l with
    | nil => rfl
    | cons j l ih =>
      rw [List.map_cons, List.sum_cons, ← ih, List.filter_cons]
      split_ifs with h
      · simp
      · have : a.getD j 0 * v.getD (i - j) 0 = 0 := by
          simp only [decide_eq_true_eq, not_and_or, not_lt] at h
          rcases h with h | h
          · rw [getD_of_ge a j h, zero_mul]
          · rw [getD_of_ge v _ h, mul_zero]
        rw [this, hg, zero_add]
  have h2 : ∀ (n : ℕ) (f : ℕ → ℤ), ((List.range n).map f).sum = ∑ k ∈ range n, f k := by
    intro n f
    induction n with
    | zero => rfl
    | succ n ih => rw [List.range_succ, List.map_append, List.sum_append, ih, sum_range_succ]; simp
  rw [h1, h2]

theorem chk_ub {n : ℤ} (h : ¬ Repr' lo hi n) : chk lo hi n = .ub := by
  unfold chk; rw [if_neg]; exact h

/-- A checked accumulation of checked terms. -/
theorem foldl_terms (ts : List ℤ) (e s : ℤ) :
    (ts.foldl (fun acc t => acc + (⟨chk lo hi t⟩ : CInt lo hi)) (CInt.of e)).val = .ok s ↔
      (∀ t ∈ ts, Repr' lo hi t) ∧ (∀ pre, pre <+: ts → pre ≠ [] → Repr' lo hi (e + pre.sum)) ∧ s = e + ts.sum := by
  have ubf : ∀ l : List ℤ, (l.foldl (fun acc t => acc + (⟨chk lo hi t⟩ : CInt lo hi)) ⟨.ub⟩).val = .ub := by
    intro l
    induction l with
    | nil => rfl
    | cons t l ih => exact ih
  induction ts generalizing e with
  | nil =>
    simp only [List.foldl_nil, CInt.of, Res.ok.injEq, List.sum_nil, add_zero]
    constructor
    · rintro rfl
      exact ⟨by simp, fun pre hp hn => absurd (List.prefix_nil.mp hp) hn, rfl⟩
    · rintro ⟨-, -, h⟩; exact h.symm
  | cons t ts ih =>
    rw [List.foldl_cons]
    by_cases ht : Repr' lo hi t
    · by_cases hs : Repr' lo hi (e + t)
      · have h1 : CInt.of e + (⟨chk lo hi t⟩ : CInt lo hi) = CInt.of (e + t) := by
          rw [← of_eq_chk ht, of_eq_chk hs]; rfl
        rw [h1]
        refine (ih (e + t)).trans ?_
        constructor
        · rintro ⟨a1, a2, a3⟩
          refine ⟨?_, fun pre hp hn => ?_, by rw [a3, List.sum_cons]; ring⟩
          · simp only [List.mem_cons, forall_eq_or_imp]; exact ⟨ht, a1⟩
          · cases pre with
            | nil => exact absurd rfl hn
            | cons y ys =>
              obtain ⟨rfl, hp'⟩ := List.cons_prefix_cons.mp hp
              cases ys with
              | nil => simpa using hs
              | cons z zs =>
                have := a2 _ hp' (by simp)
                rwa [List.sum_cons, ← add_assoc]
        · rintro ⟨a1, a2, a3⟩
          simp only [List.mem_cons, forall_eq_or_imp] at a1
          refine ⟨a1.2, fun pre hp hn => ?_, by rw [a3, List.sum_cons]; ring⟩
          have := a2 (t :: pre) (List.cons_prefix_cons.mpr ⟨rfl, hp⟩) (by simp)
          rwa [List.sum_cons, ← add_assoc] at this
      · have h1 : CInt.of e + (⟨chk lo hi t⟩ : CInt lo hi) = ⟨.ub⟩ := by
          rw [← of_eq_chk ht]
          show (⟨chk lo hi (e + t)⟩ : CInt lo hi) = _
          rw [chk_ub hs]
        rw [h1, ubf]
        constructor
        · intro h; cases h
        · rintro ⟨-, a2, -⟩
          have := a2 [t] (by simp) (by simp)
          exact absurd (by simpa using this) hs
    · have h1 : CInt.of e + (⟨chk lo hi t⟩ : CInt lo hi) = ⟨.ub⟩ := by
        rw [chk_ub ht]; rfl
      rw [h1, ubf]
      constructor
      · intro h; cases h
      · rintro ⟨a1, -, -⟩
        exact absurd (a1 t (by simp)) ht

theorem convAt_int (a v : List ℤ) (i : ℕ) (hi' : i + 1 < a.length + v.length) :
    convAt (ints lo hi a) (ints lo hi v) i =
      .ok ((convTerms a v i).foldl (fun acc t => acc + (⟨chk lo hi t⟩ : CInt lo hi)) 0) := by
  rw [convTerms_eq a v i hi']
  set n := a.length with hn
  set m := v.length with hm
  set p : ℕ := i + 1 - m with hp
  set q : ℕ := min (i + 1) n with hq
  have hjmn : (if (i : Int) ≥ (m : Int) - 1 then (i : Int) - ((m : Int) - 1) else 0) = (p : Int) := by
    split_ifs <;> omega
  have hjmx : (if (i : Int) < (n : Int) - 1 then (i : Int) else (n : Int) - 1) = (q : Int) - 1 := by
    split_ifs <;> omega
  have la : (ints lo hi a).length = n := by simp [ints, hn]
  have lv : (ints lo hi v).length = m := by simp [ints, hm]
  unfold convAt
  simp only [la, lv, hjmn, hjmx, forUp]
  have hcount : ((q : Int) - 1 + 1 - (p : Int)).toNat = q - p := by omega
  rw [hcount]
  obtain ⟨t, ht, hp⟩ := forN_inv (n := q - p)
    (f := fun k acc => do
      let x ← rd (ints lo hi a) ((p : Int) + (k : Int))
      let y ← rd (ints lo hi v) ((i : Int) - ((p : Int) + (k : Int)))
      pure (acc + x * y)) (s := (0 : CInt lo hi))
    (fun k acc => acc = ((List.range k).map fun k => a.getD (p + k) 0 * v.getD (i - (p + k)) 0).foldl
      (fun acc t => acc + (⟨chk lo hi t⟩ : CInt lo hi)) 0)
    rfl (by
      intro k hk t htk
      have h1 : p + k < (ints lo hi a).length := by omega
      have h2 : i - (p + k) < (ints lo hi v).length := by omega
      have e1 : ((p : Int) + (k : Int)) = ((p + k : ℕ) : Int) := by push_cast; rfl
      have e2 : ((i : Int) - ((p + k : ℕ) : Int)) = ((i - (p + k) : ℕ) : Int) := by omega
      refine ⟨t + (ints lo hi a)[p + k] * (ints lo hi v)[i - (p + k)], ?_, ?_⟩
      · simp only [e1, e2, rd_nat _ _ h1, rd_nat _ _ h2, Res.bind_ok, Res.pure_eq]
      · rw [List.range_succ, List.map_append, List.foldl_append, ← htk, List.map_singleton, List.foldl_cons,
          List.foldl_nil, getD_of_lt _ _ (by omega), getD_of_lt _ _ (by omega)]
        simp only [ints, List.getElem_map]
        rfl)
  rw [ht, hp]

theorem directConvolve_int (a v : List ℤ) (h : 1 ≤ a.length + v.length) :
    ∃ r : List (CInt lo hi), directConvolveImpl (List.replicate (a.length + v.length - 1) 0)
        (ints lo hi a) (ints lo hi v) = .ok r ∧
      r.length = a.length + v.length - 1 ∧
      ∀ i (hr : i < r.length),
        r[i] = (convTerms a v i).foldl (fun acc t => acc + (⟨chk lo hi t⟩ : CInt lo hi)) 0 := by
  unfold directConvolveImpl
  have la : (ints lo hi a).length = a.length := by simp [ints]
  have lv : (ints lo hi v).length = v.length := by simp [ints]
  have hreq : (((a.length + v.length - 1 : ℕ) : Int) == (a.length : Int) + (v.length : Int) - 1)
        = true := by
    rw [beq_iff_eq]; omega
  simp only [List.length_replicate, la, lv, hreq, require_true, Res.bind_ok, forUp]
  have hcount : ((a.length : Int) + (v.length : Int) - 2 + 1 - 0).toNat
      = a.length + v.length - 1 := by omega
  rw [hcount]
  obtain ⟨t, ht, hl, hp⟩ := forN_inv (n := a.length + v.length - 1)
    (f := fun k r => do
      let x ← convAt (ints lo hi a) (ints lo hi v) (0 + (k : Int))
      wr r (0 + (k : Int)) x) (s := List.replicate (a.length + v.length - 1) (0 : CInt lo hi))
    (fun k r => r.length = a.length + v.length - 1 ∧
      ∀ i (hr : i < r.length), i < k →
        r[i] = (convTerms a v i).foldl (fun acc t => acc + (⟨chk lo hi t⟩ : CInt lo hi)) 0)
    (by simp) (by
      rintro k hk t ⟨hl, hp⟩
      refine ⟨t.set k ((convTerms a v k).foldl (fun acc t => acc + (⟨chk lo hi t⟩ : CInt lo hi)) 0), ?_, ?_, ?_⟩
      · simp only [zero_add, convAt_int a v k (by omega), Res.bind_ok]
        rw [wr_nat _ _ _ (by omega)]
      · simp [hl]
      · intro i hr hi
        by_cases hik : i = k
        · subst hik
          simp
        · rw [List.getElem_set_ne (by omega)]
          exact hp i (by simpa using hr) (by omega))
  exact ⟨t, ht, hl, fun i hr => hp i hr (by omega)⟩

theorem collect_iff (l : List (CInt lo hi)) (r : List ℤ) :
    CInt.collect l = .ok r ↔ l.length = r.length ∧ ∀ i (h : i < l.length) (h' : i < r.length), l[i].val = .ok r[i] := by
  induction l generalizing r with
  | nil =>
    cases r with
    | nil => simp [CInt.collect]
    | cons n r => simp [CInt.collect]
  | cons x l ih =>
    simp only [CInt.collect, Res.bind_eq_ok', ih]
    constructor
    · rintro ⟨a, h1, as, ⟨h2, h3⟩, h4⟩
      injection h4 with h4
      subst h4
      refine ⟨by simp [h2], fun i h h' => ?_⟩
      cases i with
      | zero => simpa using h1
      | succ i => simpa using h3 i (by simpa using h) (by simpa using h')
    · rintro ⟨h1, h2⟩
      cases r with
      | nil => simp at h1
      | cons a as =>
        refine ⟨a, h2 0 (by simp) (by simp), as, ⟨by simpa using h1, fun i h h' => ?_⟩, rfl⟩
        exact h2 (i + 1) (by simpa using h) (by simpa using h')

/-- C110, convolve and polymul: the arguments are swapped when the first is shorter. -/
theorem C110_convolve_swap (a v : List ℤ) (h : a.length < v.length) :
    convolveInt lo hi a v = convolveInt lo hi v a := by
  unfold convolveInt convolve
  have la : (ints lo hi a).length = a.length := by simp [ints]
  have lv : (ints lo hi v).length = v.length := by simp [ints]
  simp only [la, lv, if_neg (not_le.2 h), if_pos h.le, Bool.and_comm, Nat.add_comm]

/-- C110, convolve and polymul: for integers the result is exact, and the call is defined exactly when every product
and every partial sum, in the order of the longer array, is representable. -/
theorem C110_convolve (h0 : Repr' lo hi 0) (a v r : List ℤ) (ha : a ≠ []) (h : v.length ≤ a.length) :
    convolveInt lo hi a v = .ok r ↔
      r.length = a.length + v.length - 1 ∧
      ∀ k (hk : k < r.length), r[k] = ∑ p ∈ antidiagonal k, a.getD p.1 0 * v.getD p.2 0 ∧
        (∀ t ∈ convTerms a v k, Repr' lo hi t) ∧ ∀ pre, pre <+: convTerms a v k → Repr' lo hi pre.sum := by
  have hpos := List.length_pos_iff.mpr ha
  obtain ⟨R, e, hl, hR⟩ := directConvolve_int (lo := lo) (hi := hi) a v (by omega)
  unfold convolveInt convolve
  have la : (ints lo hi a).length = a.length := by simp [ints]
  have lv : (ints lo hi v).length = v.length := by simp [ints]
  have hreq : (!((ints lo hi a).isEmpty && (ints lo hi v).isEmpty)) = true := by
    cases a with
    | nil => exact absurd rfl ha
    | cons _ _ => rfl
  simp only [hreq, require_true, Res.bind_ok, la, lv, if_pos h, e, collect_iff]
  have each : ∀ i (hi' : i < R.length) (s : ℤ), R[i].val = .ok s ↔
      s = ∑ p ∈ antidiagonal i, a.getD p.1 0 * v.getD p.2 0 ∧
        (∀ t ∈ convTerms a v i, Repr' lo hi t) ∧ ∀ pre, pre <+: convTerms a v i → Repr' lo hi pre.sum := by
    intro i hi' s
    have hsum := convTerms_sum a v i id rfl
    simp only [List.map_id, id] at hsum
    rw [hR i hi', show (0 : CInt lo hi) = CInt.of 0 from rfl, foldl_terms, ← hsum]
    simp only [zero_add]
    constructor
    · rintro ⟨a1, a2, a3⟩
      refine ⟨a3, a1, fun pre hp => ?_⟩
      by_cases hn : pre = []
      · rw [hn]; exact h0
      · exact a2 pre hp hn
    · rintro ⟨a1, a2, a3⟩
      exact ⟨a2, fun pre hp _ => a3 pre hp, a1⟩
  constructor
  · rintro ⟨h1, h2⟩
    refine ⟨by omega, fun k hk => (each k (by omega) _).1 (h2 k (by omega) hk)⟩
  · rintro ⟨h1, h2⟩
    refine ⟨by omega, fun k hk hk' => (each k hk _).2 (h2 k hk')⟩

/-- C110, convolve and polymul: no overflow when the sums of the absolute products fit. -/
theorem C110_convolve_defined (h0 : 0 ≤ hi) (hlo : lo ≤ -hi) (a v : List ℤ) (ha : a ≠ []) (h : v.length ≤ a.length)
    (hb : ∀ k, ∑ p ∈ antidiagonal k, |a.getD p.1 0 * v.getD p.2 0| ≤ hi) :
    ∃ r, convolveInt lo hi a v = .ok r ∧ r.length = a.length + v.length - 1 ∧
      ∀ k (hk : k < r.length), r[k] = ∑ p ∈ antidiagonal k, a.getD p.1 0 * v.getD p.2 0 := by
  set r := (List.range (a.length + v.length - 1)).map fun k => ∑ p ∈ antidiagonal k, a.getD p.1 0 * v.getD p.2 0
    with hr
  have hl : r.length = a.length + v.length - 1 := by simp [hr]
  have hv : ∀ k (hk : k < r.length), r[k] = ∑ p ∈ antidiagonal k, a.getD p.1 0 * v.getD p.2 0 := by
    intro k hk; simp [hr]
  refine ⟨r, (C110_convolve ⟨by omega, h0⟩ a v r ha h).2 ⟨hl, fun k hk => ⟨hv k hk, ?_⟩⟩, hl, hv⟩
  have hs := convTerms_sum a v k abs abs_zero
  have hbk := hb k
  rw [← hs] at hbk
  have sub : ∀ l : List ℤ, l.Sublist (convTerms a v k) → |l.sum| ≤ hi := by
    intro l hl
    refine (abs_sum_leZ l).trans (le_trans ?_ hbk)
    exact (hl.map abs).sum_le_sum (by simp)
  constructor
  · intro t ht
    have := sub [t] (List.singleton_sublist.2 ht)
    rw [List.sum_singleton] at this
    have := abs_le.1 this
    exact ⟨by omega, this.2⟩
  · intro pre hp
    have := abs_le.1 (sub pre hp.sublist)
    exact ⟨by omega, this.2⟩

/-! ### polyder, polyint -/

/-- C110, polyder (one derivative): coefficient `i` is multiplied by `N - 1 - i`, exactly, when the products are
representable; otherwise undefined (see C58 for the order of the coefficients). -/
theorem C110_polyder (P r : List ℤ) (hP : P ≠ []) :
    polyderInt lo hi P = .ok r ↔ r.length = P.length - 1 ∧
      ∀ i (h : i < r.length), r[i] = ((P.length - 1 - i : ℕ) : ℤ) * P.getD i 0 ∧ Repr' lo hi r[i] := by
  unfold polyderInt
  have hreq : (!P.isEmpty) = true := by cases P <;> simp_all
  have la : (ints lo hi P).length = P.length := by simp [ints]
  simp only [hreq, require_true, Res.bind_ok, collect_iff, List.length_mapIdx, List.length_dropLast, la]
  have each : ∀ i (h : i < P.length - 1) (s : ℤ),
      (((ints lo hi P).dropLast.mapIdx fun i c => CInt.of ((P.length - 1 - i : ℕ) : ℤ) * c)[i]'(by simp [la]; exact h)).val
        = .ok s ↔ Repr' lo hi s ∧ s = ((P.length - 1 - i : ℕ) : ℤ) * P.getD i 0 := by
    intro i h s
    rw [List.getElem_mapIdx, List.getElem_dropLast, getD_of_lt _ _ (by omega)]
    simp only [ints, List.getElem_map]
    show chk lo hi (((P.length - 1 - i : ℕ) : ℤ) * P[i]) = .ok s ↔ _
    rw [chk_ok]
    constructor
    · rintro ⟨h1, rfl⟩; exact ⟨h1, rfl⟩
    · rintro ⟨h1, rfl⟩; exact ⟨h1, rfl⟩
  constructor
  · rintro ⟨h1, h2⟩
    refine ⟨h1.symm, fun i h => ?_⟩
    have := (each i (by omega) _).1 (h2 i (by omega) h)
    exact ⟨this.2, this.1⟩
  · rintro ⟨h1, h2⟩
    refine ⟨h1.symm, fun i h h' => (each i h _).2 ?_⟩
    exact ⟨(h2 i h').2, (h2 i h').1⟩

/-- C110, polyint (one integration): the coefficients are divided with truncation, so the result is an antiderivative
exactly when `i + 1` divides coefficient `i` for every `i`. -/
theorem C110_polyint (P : List ℤ) (hP : P ≠ []) :
    ∃ r, polyintInt P = .ok r ∧ r.length = P.length + 1 ∧ r.getD 0 0 = 0 ∧
      ((∀ i < P.length, ((i + 1 : ℕ) : ℤ) * r.getD (i + 1) 0 = P.getD i 0) ↔
        ∀ i < P.length, ((i + 1 : ℕ) : ℤ) ∣ P.getD i 0) := by
  have hreq : (!P.isEmpty) = true := by cases P <;> simp_all
  refine ⟨0 :: P.mapIdx fun i c => c.tdiv ((i + 1 : ℕ) : ℤ), ?_, by simp, rfl, ?_⟩
  · unfold polyintInt
    simp only [hreq, require_true, Res.bind_ok]
    rfl
  · have e : ∀ i < P.length, (0 :: P.mapIdx fun i c => c.tdiv ((i + 1 : ℕ) : ℤ)).getD (i + 1) 0 =
        (P.getD i 0).tdiv ((i + 1 : ℕ) : ℤ) := by
      intro i hi'
      rw [List.getD_cons_succ, getD_of_lt _ _ (by simpa using hi'), List.getElem_mapIdx, getD_of_lt _ _ hi']
    constructor
    · intro h i hi'
      exact ⟨_, (h i hi').symm⟩
    · intro h i hi'
      rw [e i hi', Int.mul_tdiv_cancel' (h i hi')]

/-- C110, polyint: the antiderivative of `x` computed with integers is 0. -/
theorem C110_polyint_false : polyintInt [0, 1] = .ok [0, 0, 0] := rfl

/-! ### The hypotheses are met -/

example : polyvalInt (-2 ^ 31) (2 ^ 31 - 1) (-3) [5, 0, -2, 7] = .ok (-202) := by decide +kernel
example : polyvalInt (-2 ^ 31) (2 ^ 31 - 1) 1000 [0, 0, 0, 1000] = .ub := by decide +kernel
example : convolveInt (-2 ^ 31) (2 ^ 31 - 1) [1, 2, -3] [4, 5] = .ok [4, 13, -2, -15] := by decide +kernel
example : convolveInt (-2 ^ 31) (2 ^ 31 - 1) [2 ^ 30, 1] [2, 0] = .ub := by decide +kernel
example : polyaddInt (-128) 127 [100, 1] [27, 2, 5] = .ok [127, 3, 5] := by decide +kernel
example : polysubInt (-128) 127 [0, 1] [1, 2, -128] = .ub := by decide +kernel
example : polyderInt (-128) 127 [1, 2, 3] = .ok [2, 2] := by decide +kernel

end SciCpp
