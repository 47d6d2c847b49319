import Verif.Proofs.Functional
import Verif.Spec.Order
import Mathlib.Algebra.Order.Field.Basic
import Mathlib.Algebra.Order.Group.Unbundled.Abs
import Mathlib.Algebra.Order.BigOperators.Group.List
import Mathlib.Algebra.Group.ForwardDiff
import Mathlib.Data.Nat.Log
import Mathlib.Tactic.Ring
import Mathlib.Tactic.Linarith
import Mathlib.Tactic.FieldSimp
/-
  Helper lemmas about the numeric.hpp model.
-/
namespace SciCpp

variable {α : Type*} {β : Type*} {γ : Type*}

/-! ### rounding error of the blocked sum -/

section Rounding
variable {K : Type*} [Field K] [LinearOrder K] [IsStrictOrderedRing K]

/-- One rounded addition amplifies a relative-error factor `M` to `(1+u) M`. -/
theorem rnd_add_error {rnd : K → K} {u : K} (hu : 0 ≤ u) (hr : ∀ x, |rnd x - x| ≤ u * |x|)
    {a b a' b' A B M : K} (ha : |a' - a| ≤ (M - 1) * A) (hb : |b' - b| ≤ (M - 1) * B)
    (hA : |a| ≤ A) (hB : |b| ≤ B) :
    |rnd (a' + b') - (a + b)| ≤ ((1 + u) * M - 1) * (A + B) := by
  have h1 := hr (a' + b')
  have h2 : |a' + b' - (a + b)| ≤ (M - 1) * (A + B) := by
    have : a' + b' - (a + b) = (a' - a) + (b' - b) := by ring
    rw [this]; exact (abs_add_le _ _).trans (by linarith)
  have h3 : |a' + b'| ≤ M * (A + B) := by
    have : a' + b' = (a' + b' - (a + b)) + (a + b) := by ring
    rw [this]
    refine (abs_add_le _ _).trans ?_
    have := abs_add_le a b
    linarith
  have h4 : rnd (a' + b') - (a + b) = (rnd (a' + b') - (a' + b')) + (a' + b' - (a + b)) := by ring
  rw [h4]
  refine (abs_add_le _ _).trans ?_
  have := mul_le_mul_of_nonneg_left h3 hu
  linarith

theorem abs_list_sum_le (l : List K) : |l.sum| ≤ (l.map abs).sum := by
  induction l with
  | nil => simp
  | cons x xs ih => simp only [List.sum_cons, List.map_cons]; exact (abs_add_le _ _).trans (by linarith)

theorem map_abs_sum_nonneg (l : List K) : 0 ≤ (l.map abs).sum :=
  (abs_nonneg _).trans (abs_list_sum_le l)

theorem foldl_rnd_error {rnd : K → K} {u : K} (hu : 0 ≤ u) (hr : ∀ x, |rnd x - x| ≤ u * |x|)
    (l : List K) (a a' A : K) (k : ℕ) (ha : |a' - a| ≤ ((1 + u) ^ k - 1) * A) (hA : |a| ≤ A) :
    |l.foldl (fun x y => rnd (x + y)) a' - (a + l.sum)|
      ≤ ((1 + u) ^ (k + l.length) - 1) * (A + (l.map abs).sum) := by
  induction l generalizing a a' A k with
  | nil => simpa using ha
  | cons x xs ih =>
    have h1 : (1:K) ≤ (1 + u) ^ k := one_le_pow₀ (by linarith)
    have hx : |x - x| ≤ ((1 + u) ^ k - 1) * |x| := by
      simpa using mul_nonneg (sub_nonneg.2 h1) (abs_nonneg x)
    have h2 := rnd_add_error hu hr ha hx hA le_rfl
    rw [← pow_succ'] at h2
    have h3 := ih (a + x) (rnd (a' + x)) (A + |x|) (k + 1) h2
      ((abs_add_le _ _).trans (by linarith))
    simp only [List.foldl_cons, List.sum_cons, List.map_cons, List.length_cons]
    rw [show k + (xs.length + 1) = k + 1 + xs.length by omega, ← add_assoc, ← add_assoc]
    exact h3

theorem roundedSum_error {rnd : K → K} {u : K} (hu : 0 ≤ u) (hr : ∀ x, |rnd x - x| ≤ u * |x|)
    (p : K → Bool) (l : List K) :
    |(roundedSum rnd l p).1 - (l.filter p).sum|
      ≤ ((1 + u) ^ (64 + Nat.clog 2 l.length) - 1) * ((l.filter p).map abs).sum := by
  unfold roundedSum filterReduceAssoc
  simp only [Bool.false_eq_true, if_false]
  induction hn : l.length using Nat.strong_induction_on generalizing l with
  | _ n ih =>
    subst hn
    unfold pairwiseAcc
    split
    · rename_i hle
      simp only [filterReduce_eq]
      have h := foldl_rnd_error hu hr (l.filter p) 0 0 0 0 (by simp) (by simp)
      simp only [zero_add] at h
      refine h.trans ?_
      refine mul_le_mul_of_nonneg_right ?_ (map_abs_sum_nonneg _)
      have : (l.filter p).length ≤ 64 + Nat.clog 2 l.length :=
        (List.length_filter_le p l).trans (by simp only [pwBlock] at hle; omega)
      have := pow_le_pow_right₀ (show (1:K) ≤ 1 + u by linarith) this
      linarith
    · rename_i hgt
      simp only [pwBlock, not_le] at hgt
      have e1 : (l.take (l.length / 2)).length = l.length / 2 := by simp; omega
      have e2 : (l.drop (l.length / 2)).length = l.length - l.length / 2 := by simp
      have i1 := ih _ (by omega) (l.take (l.length / 2)) e1
      have i2 := ih _ (by omega) (l.drop (l.length / 2)) e2
      have hclog : Nat.clog 2 l.length = Nat.clog 2 ((l.length + 1) / 2) + 1 := by
        rw [Nat.clog_of_two_le (by omega) (by omega)]
        rfl
      have c1 : Nat.clog 2 (l.length / 2) + 1 ≤ Nat.clog 2 l.length := by
        rw [hclog]; exact Nat.succ_le_succ (Nat.clog_mono_right 2 (by omega))
      have c2 : Nat.clog 2 (l.length - l.length / 2) + 1 ≤ Nat.clog 2 l.length := by
        rw [hclog]; exact Nat.succ_le_succ (Nat.clog_mono_right 2 (by omega))
      obtain ⟨k, hk⟩ : ∃ k, 64 + Nat.clog 2 l.length = k + 1 := ⟨63 + Nat.clog 2 l.length, by omega⟩
      have mono : ∀ (j : ℕ) (m : List K), j ≤ k →
          ((1 + u) ^ j - 1) * ((m.filter p).map abs).sum
            ≤ ((1 + u) ^ k - 1) * ((m.filter p).map abs).sum := by
        intro j m hj
        refine mul_le_mul_of_nonneg_right ?_ (map_abs_sum_nonneg _)
        have := pow_le_pow_right₀ (show (1:K) ≤ 1 + u by linarith) hj
        linarith
      have j1 := i1.trans (mono _ _ (by omega))
      have j2 := i2.trans (mono _ _ (by omega))
      have key := rnd_add_error hu hr j1 j2 (abs_list_sum_le _) (abs_list_sum_le _)
      rw [hk, pow_succ']
      have hs : (l.filter p) = (l.take (l.length / 2)).filter p ++ (l.drop (l.length / 2)).filter p := by
        rw [← List.filter_append, List.take_append_drop]
      conv_lhs => rw [hs, List.sum_append]
      conv_rhs => rw [hs, List.map_append, List.sum_append]
      exact key

end Rounding

/-! ### partial sums -/

theorem partialSumLoop_length (op : α → α → α) (a : α) (l : List α) :
    (partialSumLoop op a l).length = l.length := by
  induction l generalizing a with
  | nil => rfl
  | cons x xs ih => simp [partialSumLoop, ih]

theorem partialSum_length (op : α → α → α) (l : List α) :
    (partialSum op l).length = l.length := by
  cases l <;> simp [partialSum, partialSumLoop_length]

theorem partialSumLoop_get (op : α → α → α) (a : α) (l : List α) (i : ℕ) (h : i < l.length) :
    (partialSumLoop op a l)[i]'(by rw [partialSumLoop_length]; exact h)
      = (l.take (i + 1)).foldl op a := by
  induction l generalizing a i with
  | nil => simp at h
  | cons x xs ih =>
    cases i with
    | zero => simp [partialSumLoop]
    | succ i => simp at h; simp [partialSumLoop, ih _ i h]

theorem partialSum_get (op : α → α → α) (e : α) (he : ∀ a, op e a = a) (l : List α) (i : ℕ)
    (h : i < l.length) :
    (partialSum op l)[i]'(by rw [partialSum_length]; exact h) = (l.take (i + 1)).foldl op e := by
  cases l with
  | nil => simp at h
  | cons x xs =>
    cases i with
    | zero => simp [partialSum, he]
    | succ i =>
      simp at h
      simp [partialSum, partialSumLoop_get _ _ _ i h, he]

/-! ### diff -/

theorem adjDiffLoop_length [Sub α] (p : α) (l : List α) : (adjDiffLoop p l).length = l.length := by
  induction l generalizing p with
  | nil => rfl
  | cons x xs ih => simp [adjDiffLoop, ih]

theorem adjDiffLoop_get [Sub α] (p : α) (l : List α) (i : ℕ) (h : i < l.length) :
    (adjDiffLoop p l)[i]'(by rw [adjDiffLoop_length]; exact h)
      = (p :: l)[i + 1]'(by simp; exact h) - (p :: l)[i]'(by simp; omega) := by
  induction l generalizing p i with
  | nil => simp at h
  | cons x xs ih =>
    cases i with
    | zero => simp [adjDiffLoop]
    | succ i => simp at h; simp [adjDiffLoop, ih x i h]

/-- Both versions of `diff_once` compute the same list of consecutive differences. -/
theorem diffOnceArr_eq [Sub α] (l : List α) : diffOnceArr l = (adjDiff l).tail := by
  match l with
  | [] => rfl
  | [x] => rfl
  | x :: y :: r => simp [diffOnceArr, adjDiff, adjDiffLoop]

theorem diffOnce_length [Sub α] (l : List α) : (adjDiff l).tail.length = l.length - 1 := by
  cases l <;> simp [adjDiff, adjDiffLoop_length]

theorem diffOnce_get [Sub α] (l : List α) (i : ℕ) (h : i + 1 < l.length) :
    (adjDiff l).tail[i]'(by rw [diffOnce_length]; omega) = l[i + 1] - l[i] := by
  cases l with
  | nil => simp at h
  | cons x xs =>
    simp only [adjDiff, List.tail_cons]
    simp at h
    exact adjDiffLoop_get x xs i h

theorem diffArr_nil [Sub α] (n : ℕ) : diffArr n ([] : List α) = [] := by
  induction n with
  | zero => rfl
  | succ n ih => simpa [diffArr, diffOnceArr] using ih

theorem diffVecLoop_eq [Sub α] (n : ℕ) (l : List α) : diffVecLoop n l = .ok (diffArr n l) := by
  induction n generalizing l with
  | zero => rfl
  | succ n ih =>
    cases l with
    | nil => simp [diffVecLoop, diffArr_nil]
    | cons x xs =>
      simp [diffVecLoop, diffOnceVec, diffArr, diffOnceArr_eq, ih]

theorem diffArr_length [Sub α] (n : ℕ) (l : List α) : (diffArr n l).length = l.length - n := by
  induction n generalizing l with
  | zero => rfl
  | succ n ih => rw [diffArr, ih, diffOnceArr_eq, diffOnce_length]; omega

/-- Value at `i` of the `n`-th difference, through any function extending the list. -/
theorem diffArr_get [AddCommGroup α] (n : ℕ) (l : List α) (f : ℕ → α)
    (hf : ∀ (i : ℕ) (h : i < l.length), f i = l[i]) (i : ℕ) (h : i < (diffArr n l).length) :
    (diffArr n l)[i] = (fwdDiff 1)^[n] f i := by
  induction n generalizing l f i with
  | zero => simp only [diffArr] at h ⊢; simp [hf i h]
  | succ n ih =>
    simp only [diffArr, Function.iterate_succ, Function.comp]
    apply ih
    intro j hj
    rw [diffOnceArr_eq, diffOnce_length] at hj
    simp only [diffOnceArr_eq]
    rw [diffOnce_get l j (by omega), fwdDiff, hf, hf]

/-! ### masks -/

theorem maskLoop_eq (res a : List α) (m : List Bool) :
    maskLoop res a m = res ++ ((a.zip m).filter (·.2)).map (·.1) := by
  induction a generalizing m res with
  | nil => cases m <;> simp [maskLoop]
  | cons x xs ih =>
    cases m with
    | nil => simp [maskLoop]
    | cons b bs => cases b <;> simp [maskLoop, ih]

theorem maskInplaceLoop_eq (m : List Bool) (fuel i idx : ℕ) (a : List α)
    (hl : a.length = m.length) (hi : i + fuel = a.length) (hidx : idx ≤ i) :
    ∃ a', maskInplaceLoop m fuel i idx a = .ok (idx + (((a.zip m).drop i).filter (·.2)).length, a')
      ∧ a'.take (idx + (((a.zip m).drop i).filter (·.2)).length)
        = a.take idx ++ (((a.zip m).drop i).filter (·.2)).map (·.1) := by
  induction fuel generalizing i idx a with
  | zero =>
    refine ⟨a, ?_, ?_⟩ <;>
    · have : (a.zip m).drop i = [] := by apply List.drop_eq_nil_of_le; simp; omega
      simp [this, maskInplaceLoop]
  | succ fuel ih =>
    have h1 : i < a.length := by omega
    have h2 : i < m.length := by omega
    have hz : (a.zip m).drop i = (a[i], m[i]) :: (a.zip m).drop (i + 1) := by
      rw [List.drop_eq_getElem_cons (by simp; omega)]
      simp
    unfold maskInplaceLoop
    simp only [List.getElem?_eq_getElem h1, List.getElem?_eq_getElem h2]
    rw [hz]
    cases hb : m[i] with
    | false =>
      simp only [Bool.false_eq_true, if_false, List.filter_cons]
      exact ih (i + 1) idx a hl (by omega) (by omega)
    | true =>
      have hlt : idx < a.length := by omega
      obtain ⟨a', e1, e2⟩ := ih (i + 1) (idx + 1) (a.set idx a[i]) (by simpa using hl)
        (by simp; omega) (by omega)
      have hd : ((a.set idx a[i]).zip m).drop (i + 1) = (a.zip m).drop (i + 1) := by
        apply List.ext_getElem
        · simp
        · intro k hk1 hk2
          simp only [List.getElem_drop, List.getElem_zip, Prod.mk.injEq, and_true]
          rw [List.getElem_set_ne (by omega)]
      rw [hd] at e1 e2
      refine ⟨a', ?_, ?_⟩
      · simp only [hlt, if_true, e1, List.filter_cons, List.length_cons]
        congr 2; omega
      · simp only [List.filter_cons, if_true, List.length_cons, List.map_cons]
        rw [show idx + ((((a.zip m).drop (i + 1)).filter (·.2)).length + 1)
            = idx + 1 + (((a.zip m).drop (i + 1)).filter (·.2)).length by omega, e2]
        have ht : (a.set idx a[i]).take (idx + 1) = a.take idx ++ [a[i]] := by
          rw [List.take_add_one, List.getElem?_set_self hlt]
          rw [List.take_set, List.set_eq_of_length_le (by simp)]; rfl
        rw [ht]; simp

/-! ### argwhere -/

theorem argwhereLoop_eq (p : α → Bool) (i : ℕ) (res : List ℕ) (l : List α) :
    argwhereLoop p i res l
      = res ++ ((List.range l.length).filter (fun k => (l[k]?.map p).getD false)).map (· + i) := by
  induction l generalizing i res with
  | nil => simp [argwhereLoop]
  | cons x xs ih =>
    rw [argwhereLoop, ih, List.length_cons, List.range_succ_eq_map, List.filter_cons]
    have e : ((List.map Nat.succ (List.range xs.length)).filter
          (fun k => ((x :: xs)[k]?.map p).getD false)).map (· + i)
        = ((List.range xs.length).filter (fun k => (xs[k]?.map p).getD false)).map (· + (i + 1)) := by
      rw [List.filter_map, List.map_map]
      have : ((fun k => ((x :: xs)[k]?.map p).getD false) ∘ Nat.succ)
          = fun k => (xs[k]?.map p).getD false := by funext k; simp
      rw [this]
      apply List.map_congr_left
      intro a _; simp; omega
    by_cases h : p x
    · simp only [h, if_true, List.getElem?_cons_zero, Option.map_some, Option.getD_some,
        List.map_cons, e]; simp
    · simp only [h, List.getElem?_cons_zero, Option.map_some, Option.getD_some,
        e, Bool.false_eq_true, if_false]

/-! ### argcmp -/

open Spec

/-- Correctness of the scanning loop started with an accepted candidate. -/
theorem argLoop_spec {p : α → Bool} {cmp : α → α → Bool} (sw : StrictWeakOn p cmp)
    (l : List α) (i : ℕ) (rest : List α) (hi : l.drop i = rest) (hil : i ≤ l.length) (max : α)
    (idx : ℕ) (hidx : idx < i) (hmax : l[idx]'(by omega) = max) (hp : p max)
    (hbest : ∀ (j : ℕ) (hj : j < i), p (l[j]'(by omega)) → cmp (l[j]'(by omega)) max = false)
    (hfirst : ∀ (j : ℕ) (hj : j < idx), p (l[j]'(by omega)) → cmp max (l[j]'(by omega))) :
    IsFirstBest p cmp l (argLoop p cmp i max idx rest) := by
  induction rest generalizing i max idx with
  | nil =>
    have hlen : l.length ≤ i := List.drop_eq_nil_iff.1 hi
    have : i = l.length := by omega
    subst this
    simp only [argLoop]
    exact ⟨by omega, by rw [hmax]; exact hp, fun j hj h => by rw [hmax]; exact hbest j hj h,
      fun j hj h => by rw [hmax]; exact hfirst j hj h⟩
  | cons x xs ih =>
    have hlt : i < l.length := by
      by_contra hc
      rw [List.drop_eq_nil_of_le (by omega)] at hi; simp at hi
    have hx : l[i] = x ∧ l.drop (i + 1) = xs := by
      rw [List.drop_eq_getElem_cons hlt] at hi; exact List.cons.inj hi
    obtain ⟨hx, hxs⟩ := hx
    rw [argLoop]
    by_cases hc : (p x && cmp x max) = true
    · rw [if_pos hc]
      rw [Bool.and_eq_true] at hc
      refine ih (i + 1) hxs hlt x i (by omega) hx hc.1 ?_ ?_
      · intro j hj hpj
        rcases Nat.lt_succ_iff_lt_or_eq.1 hj with h | h
        · by_contra hne
          have hne : cmp (l[j]'(by omega)) x = true := by simpa using hne
          have := sw.trans _ _ _ hpj hc.1 hp hne hc.2
          rw [hbest j h hpj] at this; exact absurd this (by simp)
        · subst h; rw [hx]; exact sw.irrefl _ hc.1
      · intro j hj hpj
        rcases sw.negTrans _ (l[j]'(by omega)) _ hc.1 hpj hp hc.2 with h | h
        · exact h
        · rw [hbest j hj hpj] at h; exact absurd h (by simp)
    · rw [if_neg hc]
      refine ih (i + 1) hxs hlt max idx (by omega) hmax hp ?_ hfirst
      intro j hj hpj
      rcases Nat.lt_succ_iff_lt_or_eq.1 hj with h | h
      · exact hbest j h hpj
      · subst h
        rw [hx] at hpj ⊢
        simpa [hpj] using hc

theorem argSkip_all {p : α → Bool} (x : α) (xs : List α) (h : p x) (i : ℕ) :
    argSkip p i (x :: xs) = .ok (i, x, xs) := by simp [argSkip, h]

theorem argSkip_none {p : α → Bool} (l : List α) (h : ∀ x ∈ l, p x = false) (i : ℕ) :
    argSkip p i l = .ub := by
  induction l generalizing i with
  | nil => rfl
  | cons x xs ih =>
    simp only [List.mem_cons, forall_eq_or_imp] at h
    simp [argSkip, h.1, ih h.2]

/-- `argcmp` is right whenever the first element of the array is accepted. -/
theorem argcmp_head {p : α → Bool} {cmp : α → α → Bool} (sw : StrictWeakOn p cmp)
    (x : α) (xs : List α) (hx : p x) :
    ∃ i, argcmp (x :: xs) p cmp = .ok i ∧ IsFirstBest p cmp (x :: xs) i := by
  unfold argcmp
  simp only [argSkip_all x xs hx]
  cases xs with
  | nil =>
    refine ⟨0, by simp, ⟨by simp, by simpa using hx, ?_, by simp⟩⟩
    intro j hj _
    have : j = 0 := by simp at hj; omega
    subst this; exact sw.irrefl _ hx
  | cons y ys =>
    refine ⟨argLoop p cmp 1 x 0 (y :: ys), by simp, ?_⟩
    refine argLoop_spec sw (x :: y :: ys) 1 (y :: ys) rfl (by simp) x 0 (by omega) rfl hx ?_ ?_
    · intro j hj _
      have : j = 0 := by omega
      subst this; exact sw.irrefl _ hx
    · intro j hj; omega

end SciCpp
