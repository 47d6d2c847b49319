import Verif.Proofs.OrderStat
import Verif.Proofs.Functional
import Verif.Spec.Stats
import Mathlib.Algebra.CharZero.Defs
import Mathlib.Algebra.BigOperators.Ring.List
import Mathlib.Algebra.Star.BigOperators
import Mathlib.Tactic.FieldSimp
import Mathlib.Tactic.Ring
import Mathlib.Tactic.LinearCombination
/-
  Lemmas about mean and covariance on `Ex K`.
-/
namespace SciCpp

open Spec

set_option linter.unusedSectionVars false

variable {K : Type*} [Field K] [StarRing K] [DecidableEq K]

theorem toI32_of_lt {n : ℤ} (h0 : 0 ≤ n) (h : n < 2 ^ 31) : toI32 n = n := by
  unfold toI32
  rw [Int.bmod_eq_of_le] <;> omega

theorem sum_map_fin (s : List K) : (s.map Ex.fin).sum = Ex.fin s.sum := by
  induction s with
  | nil => rfl
  | cons x s ih => rw [List.map_cons, List.sum_cons, List.sum_cons, ih]; rfl

theorem sumF_ex (l : List (Ex K)) (p : Ex K → Bool) :
    sumF false l p = ((l.filter p).sum, (l.filter p).length) := by
  unfold sumF
  have := filterReduceAssoc_eq (α := Ex K) false l p (op := (· + ·)) (e := 0) add_assoc zero_add
    add_zero
  rw [List.sum_eq_foldl]
  exact this

/-- `mean` when the accepted elements are the finite values `s`. -/
theorem mean_ex [CharZero K] (l : List (Ex K)) (p : Ex K → Bool) (s : List K)
    (hs : l.filter p = s.map Ex.fin) (hne : s ≠ []) (hlen : s.length < 2 ^ 31) :
    mean l p = Ex.fin (meanL s) := by
  have hl : l.length ≠ 0 := by
    intro h
    have := List.length_eq_zero_iff.mp h
    subst this
    cases s with
    | nil => exact hne rfl
    | cons _ _ => simp at hs
  have hpos : 0 < s.length := List.length_pos_iff.mpr hne
  unfold mean
  rw [if_neg hl, sumF_ex, hs, sum_map_fin, List.length_map]
  simp only [Ex.ofInt_def]
  rw [toI32_of_lt (by omega) (by exact_mod_cast hlen)]
  have h0 : ((s.length : ℤ) : K) ≠ 0 := by
    rw [Int.cast_natCast]; exact_mod_cast hpos.ne'
  rw [Ex.fin_div h0, meanL, Int.cast_natCast]

theorem mean_ex_empty (l : List (Ex K)) (p : Ex K → Bool) (hs : l.filter p = []) :
    mean l p = Ex.nan := by
  unfold mean
  split_ifs with h
  · rfl
  · rw [sumF_ex, hs]
    simp only [List.sum_nil, List.length_nil, Ex.ofInt_def]
    have : toI32 ((0 : ℕ) : ℤ) = 0 := by decide
    rw [this, Int.cast_zero]
    exact Ex.fin_div_zero 0

/-! ### covariance -/

/-- The accepted pairs, as field elements. -/
def acceptedPairs (p : Ex K → Bool) (l1 l2 : List (Ex K)) (s : List (K × K)) : Prop :=
  l1.length = l2.length ∧ l1.filter p = s.map (fun ab => Ex.fin ab.1) ∧
  l2.filter p = s.map (fun ab => Ex.fin ab.2) ∧
  (l1.zip l2).filter (fun xy => p xy.1 && p xy.2) = s.map (fun ab => (Ex.fin ab.1, Ex.fin ab.2))

theorem covLoop_eq (p : Ex K → Bool) (m1 m2 : K) (l1 l2 : List (Ex K)) (hl : l1.length = l2.length)
    (s : List (K × K))
    (hs : (l1.zip l2).filter (fun xy => p xy.1 && p xy.2)
      = s.map (fun ab => (Ex.fin ab.1, Ex.fin ab.2))) (r : K) (c : ℕ) :
    covLoop p (Ex.fin m1) (Ex.fin m2) (Ex.fin r) c l1 l2
      = .ok (Ex.fin (r + (s.map fun ab => (ab.1 - m1) * star (ab.2 - m2)).sum), c + s.length) := by
  induction l1 generalizing l2 s r c with
  | nil =>
    have hs' : s = [] := by
      cases s with
      | nil => rfl
      | cons _ _ => simp at hs
    subst hs'; simp [covLoop]
  | cons x l1 ih =>
    rcases l2 with _ | ⟨y, l2⟩
    · simp at hl
    · have hl' : l1.length = l2.length := by simpa using hl
      rw [covLoop]
      by_cases hp : (p x && p y) = true
      · rw [if_pos hp]
        rw [List.zip_cons_cons, List.filter_cons, if_pos hp] at hs
        rcases s with _ | ⟨⟨a, b⟩, s⟩
        · simp at hs
        · simp only [List.map_cons, List.cons.injEq, Prod.mk.injEq] at hs
          obtain ⟨⟨hx, hy⟩, hs⟩ := hs
          subst hx hy
          simp only [Ex.fin_sub, Ex.conj_fin, Ex.fin_mul, Ex.fin_add]
          rw [ih l2 hl' s hs]
          simp only [List.map_cons, List.sum_cons, List.length_cons]
          have e1 : r + (a - m1) * star (b - m2)
              + (s.map fun ab => (ab.1 - m1) * star (ab.2 - m2)).sum
              = r + ((a - m1) * star (b - m2)
                + (s.map fun ab => (ab.1 - m1) * star (ab.2 - m2)).sum) := by ring
          have e2 : c + 1 + s.length = c + (s.length + 1) := by omega
          rw [e1, e2]
      · rw [if_neg hp]
        rw [List.zip_cons_cons, List.filter_cons, if_neg hp] at hs
        exact ih l2 hl' s hs r c

/-- The exact accumulator of a list of pairs. -/
def covAcc (s : List (K × K)) : CovAcc (Ex K) :=
  (Ex.fin (meanL (s.map Prod.fst)), Ex.fin (meanL (s.map Prod.snd)), Ex.fin (covSum s), s.length)

theorem covBlock_eq [CharZero K] (p : Ex K → Bool) (l1 l2 : List (Ex K)) (s : List (K × K))
    (h : acceptedPairs p l1 l2 s) (hne : s ≠ []) (hlen : s.length < 2 ^ 31) :
    covBlock p l1 l2 = .ok (covAcc s) := by
  obtain ⟨h0, h1, h2, h3⟩ := h
  have e1 : mean l1 p = Ex.fin (meanL (s.map Prod.fst)) :=
    mean_ex l1 p (s.map Prod.fst) (by rw [h1, List.map_map]; rfl) (by simpa using hne) (by simpa using hlen)
  have e2 : mean l2 p = Ex.fin (meanL (s.map Prod.snd)) :=
    mean_ex l2 p (s.map Prod.snd) (by rw [h2, List.map_map]; rfl) (by simpa using hne) (by simpa using hlen)
  unfold covBlock
  rw [e1, e2]
  simp only [Ex.zero_def]
  rw [covLoop_eq p _ _ l1 l2 h0 s h3]
  simp [covAcc, covSum]

/-- Sums of products of deviations from arbitrary centres. -/
theorem sum_dev (s : List (K × K)) (c d : K) :
    (s.map fun xy => (xy.1 - c) * star (xy.2 - d)).sum
      = (s.map fun xy => xy.1 * star xy.2).sum - (s.map Prod.fst).sum * star d
        - c * star ((s.map Prod.snd).sum) + (s.length : K) * (c * star d) := by
  induction s with
  | nil => simp
  | cons x s ih =>
    rw [List.map_cons, List.sum_cons, ih]
    simp only [List.map_cons, List.sum_cons, star_add, star_sub, List.length_cons]
    push_cast; ring

theorem covSum_eq (s : List (K × K)) (hs : (s.length : K) ≠ 0) :
    covSum s = (s.map fun xy => xy.1 * star xy.2).sum
      - (s.map Prod.fst).sum * star ((s.map Prod.snd).sum) / (s.length : K) := by
  unfold covSum
  rw [sum_dev]
  have hst : star (meanL (s.map Prod.snd)) = star ((s.map Prod.snd).sum) / (s.length : K) := by
    simp [meanL, star_div₀]
  have hst1 : meanL (s.map Prod.fst) = (s.map Prod.fst).sum / (s.length : K) := by
    simp [meanL]
  rw [hst, hst1]
  field_simp
  ring

theorem covCombine_eq [CharZero K] (s t : List (K × K)) (hs : s ≠ []) (ht : t ≠ [])
    (hlen : s.length + t.length < 2 ^ 31) :
    covCombine (covAcc s) (covAcc t) = covAcc (s ++ t) := by
  have hs1 : 0 < s.length := List.length_pos_iff.mpr hs
  have ht1 : 0 < t.length := List.length_pos_iff.mpr ht
  have hsK : (s.length : K) ≠ 0 := by exact_mod_cast hs1.ne'
  have htK : (t.length : K) ≠ 0 := by exact_mod_cast ht1.ne'
  have hstK : (s.length : K) + (t.length : K) ≠ 0 := by
    have : ((s.length + t.length : ℕ) : K) ≠ 0 := by
      rw [Nat.cast_ne_zero]; omega
    simpa using this
  have hc : (((s ++ t).length : ℕ) : K) ≠ 0 := by simpa using hstK
  have i1 : toI32 ((s.length : ℕ) : ℤ) = s.length := toI32_of_lt (by omega) (by omega)
  have i2 : toI32 ((t.length : ℕ) : ℤ) = t.length := toI32_of_lt (by omega) (by omega)
  have i3 : toI32 ((s.length + t.length : ℕ) : ℤ) = ((s.length + t.length : ℕ) : ℤ) :=
    toI32_of_lt (by omega) (by omega)
  unfold covCombine covAcc
  simp only [i1, i2, i3, Ex.ofInt_def, Int.cast_natCast, Int.cast_one]
  rw [Nat.cast_add (R := K)]
  rw [Ex.fin_div hstK, Ex.fin_mul, Ex.fin_mul, Ex.fin_mul, Ex.fin_mul, Ex.fin_mul,
    Ex.fin_div hstK]
  simp only [Ex.fin_add, Ex.fin_sub, Ex.fin_mul, Ex.conj_fin]
  clear i1 i2 i3 hlen
  refine Prod.ext ?_ (Prod.ext ?_ (Prod.ext ?_ ?_))
  · simp only [meanL, List.length_map, List.map_append, List.sum_append, List.length_append]
    refine congrArg Ex.fin ?_
    push_cast; field_simp
  · simp only [meanL, List.length_map, List.map_append, List.sum_append, List.length_append]
    refine congrArg Ex.fin ?_
    push_cast; field_simp
  · refine congrArg Ex.fin ?_
    rw [covSum_eq s hsK, covSum_eq t htK, covSum_eq (s ++ t) hc]
    simp only [List.map_append, List.sum_append, List.length_append, star_add, star_sub, meanL,
      List.length_map, star_div₀, star_natCast]
    push_cast
    field_simp
    ring
  · simp

/-- Windows of 32 consecutive positions all contain an accepted element. -/
def everyWindow {β : Type*} (p : β → Bool) (l : List β) : Prop :=
  ∀ i, i + 32 ≤ l.length → ∃ x ∈ (l.drop i).take 32, p x = true

theorem everyWindow_take {β : Type*} {p : β → Bool} {l : List β} (h : everyWindow p l) (n : ℕ) :
    everyWindow p (l.take n) := by
  intro i hi
  rw [List.length_take] at hi
  obtain ⟨x, hx, hp⟩ := h i (by omega)
  refine ⟨x, ?_, hp⟩
  rw [List.drop_take, List.take_take]
  rwa [Nat.min_eq_left (by omega)]

theorem everyWindow_drop {β : Type*} {p : β → Bool} {l : List β} (h : everyWindow p l) (n : ℕ) :
    everyWindow p (l.drop n) := by
  intro i hi
  rw [List.length_drop] at hi
  obtain ⟨x, hx, hp⟩ := h (n + i) (by omega)
  exact ⟨x, by rwa [List.drop_drop], hp⟩

theorem everyWindow_ne {β : Type*} {p : β → Bool} {l : List β} (h : everyWindow p l)
    (hl : 32 ≤ l.length) : l.filter p ≠ [] := by
  obtain ⟨x, hx, hp⟩ := h 0 (by omega)
  intro he
  have : x ∈ l.filter p := List.mem_filter.mpr ⟨List.mem_of_mem_drop (List.mem_of_mem_take hx), hp⟩
  rw [he] at this
  simp at this

theorem zip_take_drop {β γ : Type*} (l1 : List β) (l2 : List γ) (n : ℕ) :
    (l1.zip l2) = ((l1.take n).zip (l2.take n)) ++ ((l1.drop n).zip (l2.drop n)) := by
  have h1 := List.take_append_drop n (l1.zip l2)
  simp only [List.zip] at h1 ⊢
  rw [List.take_zipWith, List.drop_zipWith] at h1
  exact h1.symm

/-- All accepted values of the pair of arrays are finite, and the filter accepts the two elements of
a pair together. -/
def goodPairs (p : Ex K → Bool) (l1 l2 : List (Ex K)) : Prop :=
  l1.length = l2.length ∧
  ∀ xy ∈ l1.zip l2, p xy.1 = p xy.2 ∧ (p xy.1 = true → ∃ a b, xy = (Ex.fin a, Ex.fin b))

/-- The accepted pairs as a function. -/
def pairsOf (p : Ex K → Bool) (l1 l2 : List (Ex K)) : List (K × K) :=
  (l1.zip l2).filterMap fun xy =>
    match xy with
    | (Ex.fin a, Ex.fin b) => if p (Ex.fin a) && p (Ex.fin b) then some (a, b) else none
    | _ => none

theorem acceptedPairs_pairsOf (p : Ex K → Bool) (l1 l2 : List (Ex K)) (h : goodPairs p l1 l2) :
    acceptedPairs p l1 l2 (pairsOf p l1 l2) := by
  obtain ⟨hl, h⟩ := h
  refine ⟨hl, ?_⟩
  induction l1 generalizing l2 with
  | nil =>
    have : l2 = [] := List.length_eq_zero_iff.mp hl.symm
    subst this; simp [pairsOf]
  | cons x l1 ih =>
    rcases l2 with _ | ⟨y, l2⟩
    · simp at hl
    · obtain ⟨i1, i2, i3⟩ := ih l2 (by simpa using hl)
        (fun xy hxy => h xy (by rw [List.zip_cons_cons]; exact List.mem_cons_of_mem _ hxy))
      obtain ⟨hp, hf⟩ := h (x, y) (by simp)
      simp only at hp hf
      by_cases hx : p x = true
      · obtain ⟨a, b, hab⟩ := hf hx
        simp only [Prod.mk.injEq] at hab
        obtain ⟨rfl, rfl⟩ := hab
        have hy : p (Ex.fin b) = true := by rw [← hp]; exact hx
        have e : pairsOf p (Ex.fin a :: l1) (Ex.fin b :: l2) = (a, b) :: pairsOf p l1 l2 := by
          simp [pairsOf, hx, hy]
        rw [e]
        simp [hx, hy, i1, i2, i3]
      · have hy : p y = false := by rw [← hp]; simpa using hx
        have hx' : p x = false := by simpa using hx
        have e : pairsOf p (x :: l1) (y :: l2) = pairsOf p l1 l2 := by
          cases x <;> cases y <;> simp [pairsOf, hx']
        rw [e]
        simp [hx', hy, i1, i2, i3]

theorem goodPairs_take {p : Ex K → Bool} {l1 l2 : List (Ex K)} (h : goodPairs p l1 l2) (n : ℕ) :
    goodPairs p (l1.take n) (l2.take n) := by
  refine ⟨by simp [h.1], fun xy hxy => h.2 xy ?_⟩
  rw [zip_take_drop l1 l2 n]; exact List.mem_append_left _ hxy

theorem goodPairs_drop {p : Ex K → Bool} {l1 l2 : List (Ex K)} (h : goodPairs p l1 l2) (n : ℕ) :
    goodPairs p (l1.drop n) (l2.drop n) := by
  refine ⟨by simp [h.1], fun xy hxy => h.2 xy ?_⟩
  rw [zip_take_drop l1 l2 n]; exact List.mem_append_right _ hxy

theorem pairsOf_split (p : Ex K → Bool) (l1 l2 : List (Ex K)) (n : ℕ) :
    pairsOf p l1 l2 = pairsOf p (l1.take n) (l2.take n) ++ pairsOf p (l1.drop n) (l2.drop n) := by
  unfold pairsOf
  rw [zip_take_drop l1 l2 n, List.filterMap_append]

theorem cov_pairwise [CharZero K] (p : Ex K → Bool) (l1 l2 : List (Ex K)) (h : goodPairs p l1 l2)
    (hne : pairsOf p l1 l2 ≠ []) (hw : l1.length ≤ 64 ∨ everyWindow p l1)
    (hlen : (pairsOf p l1 l2).length < 2 ^ 31) :
    pairwiseAcc2 pwBlock (covBlock p) covCombine l1 l2 = .ok (covAcc (pairsOf p l1 l2)) := by
  induction hn : l1.length using Nat.strong_induction_on generalizing l1 l2 with
  | _ n ih =>
    unfold pairwiseAcc2
    rw [if_neg (by simp [h.1])]
    split_ifs with hc
    · exact covBlock_eq p l1 l2 _ (acceptedPairs_pairsOf p l1 l2 h) hne hlen
    · have hW : everyWindow p l1 := by
        rcases hw with hw | hw
        · exact absurd hw hc
        · exact hw
      have hc' : 64 < l1.length := by simpa [pwBlock] using hc
      set k := l1.length / 2 with hk
      have key : ∀ m1 m2 : List (Ex K), goodPairs p m1 m2 → everyWindow p m1 → 32 ≤ m1.length →
          pairsOf p m1 m2 ≠ [] := by
        intro m1 m2 hg hw' hm he
        have := (acceptedPairs_pairsOf p m1 m2 hg).2.1
        rw [he] at this
        exact everyWindow_ne hw' hm (by simpa using this)
      have hT := key _ _ (goodPairs_take h k) (everyWindow_take hW k) (by simp; omega)
      have hD := key _ _ (goodPairs_drop h k) (everyWindow_drop hW k) (by simp; omega)
      have hsplit := pairsOf_split p l1 l2 k
      have hll := congrArg List.length hsplit
      rw [List.length_append] at hll
      rw [ih _ (by simp; omega) _ _ (goodPairs_take h k) hT (Or.inr (everyWindow_take hW k))
          (by omega) rfl,
        ih _ (by simp; omega) _ _ (goodPairs_drop h k) hD (Or.inr (everyWindow_drop hW k))
          (by omega) rfl]
      simp only [Res.bind_ok, Res.pure_eq]
      rw [covCombine_eq _ _ hT hD (by omega), ← hsplit]

/-- The general correctness statement used by all covariance theorems. -/
theorem covarianceF_eq [CharZero K] (ddof : ℤ) (p : Ex K → Bool) (l1 l2 : List (Ex K))
    (h : goodPairs p l1 l2) (hne : pairsOf p l1 l2 ≠ [])
    (hw : l1.length ≤ 64 ∨ everyWindow p l1) (hlen : (pairsOf p l1 l2).length < 2 ^ 31)
    (hd : ddof < (pairsOf p l1 l2).length) :
    covarianceF ddof l1 l2 p
      = .ok (Ex.fin (covL ddof (pairsOf p l1 l2)), (pairsOf p l1 l2).length) := by
  have hl1 : l1.length ≠ 0 := by
    intro h0
    have := List.length_eq_zero_iff.mp h0
    subst this
    exact hne rfl
  unfold covarianceF
  have hr : (l1.length == l2.length) = true := by simp [h.1]
  simp only [hr, require_true, Res.bind_ok, if_neg hl1]
  rw [cov_pairwise p l1 l2 h hne hw hlen]
  simp only [Res.bind_ok, covAcc]
  rw [if_neg (by omega)]
  simp only [Res.pure_eq, Ex.ofInt_def]
  rw [toI32_of_lt (by omega) (by exact_mod_cast hlen)]
  have hK : (((pairsOf p l1 l2).length - ddof : ℤ) : K) ≠ 0 := by
    rw [Int.cast_ne_zero]; omega
  rw [Ex.fin_div hK, covL]
  push_cast
  rfl

theorem covarianceF_inf [CharZero K] (ddof : ℤ) (p : Ex K → Bool) (l1 l2 : List (Ex K))
    (h : goodPairs p l1 l2) (hne : pairsOf p l1 l2 ≠ [])
    (hw : l1.length ≤ 64 ∨ everyWindow p l1) (hlen : (pairsOf p l1 l2).length < 2 ^ 31)
    (hd : ((pairsOf p l1 l2).length : ℤ) ≤ ddof) :
    covarianceF ddof l1 l2 p = .ok (Ex.inf, (pairsOf p l1 l2).length) := by
  have hl1 : l1.length ≠ 0 := by
    intro h0
    have := List.length_eq_zero_iff.mp h0
    subst this
    exact hne rfl
  unfold covarianceF
  have hr : (l1.length == l2.length) = true := by simp [h.1]
  simp only [hr, require_true, Res.bind_ok, if_neg hl1]
  rw [cov_pairwise p l1 l2 h hne hw hlen]
  simp only [Res.bind_ok, covAcc]
  rw [if_pos (by omega)]
  rfl

theorem goodPairs_all (x y : List K) (h : x.length = y.length) :
    goodPairs (fun _ => true) (x.map Ex.fin) (y.map Ex.fin) := by
  refine ⟨by simp [h], fun xy hxy => ⟨rfl, fun _ => ?_⟩⟩
  rw [List.zip_map] at hxy
  obtain ⟨⟨a, b⟩, _, rfl⟩ := List.mem_map.mp hxy
  exact ⟨a, b, rfl⟩

theorem pairsOf_all (x y : List K) :
    pairsOf (fun _ => true) (x.map Ex.fin) (y.map Ex.fin) = x.zip y := by
  unfold pairsOf
  rw [List.zip_map, List.filterMap_map]
  have : ((fun xy : Ex K × Ex K => match xy with
      | (Ex.fin a, Ex.fin b) => if (true && true) = true then some (a, b) else none
      | _ => none) ∘ Prod.map Ex.fin Ex.fin) = some := by
    funext ⟨a, b⟩; rfl
  rw [this, List.filterMap_some]

theorem everyWindow_all {β : Type*} (l : List β) : everyWindow (fun _ => true) l := by
  intro i hi
  have : 0 < ((l.drop i).take 32).length := by simp; omega
  obtain ⟨x, hx⟩ := List.exists_mem_of_length_pos this
  exact ⟨x, hx, rfl⟩

end SciCpp
