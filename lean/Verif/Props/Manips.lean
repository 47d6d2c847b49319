import Verif.Model.Fft
import Verif.Props.Range
import Mathlib.Data.List.Rotate
/-
  Property theorems C30 (concatenate, flip), C44 (fftshift), C45 (fftfreq), C46 (zero_padding,
  subvector).
-/
namespace SciCpp

set_option linter.unusedSectionVars false

universe u v w
variable {α : Type u} {β : Type v} {γ : Type w}

/-! ## Lemmas about copies -/

theorem copyAt_ok (src : List α) (dst : List α) (off : ℕ) (h : off + src.length ≤ dst.length) :
    copyAt dst (off : ℤ) src = .ok (dst.take off ++ src ++ dst.drop (off + src.length)) := by
  induction src generalizing dst off with
  | nil => simp [copyAt]
  | cons x xs ih =>
    rw [List.length_cons] at h
    rw [copyAt, wr_nat dst off x (by omega)]
    simp only [Res.bind_ok]
    rw [show (off : ℤ) + 1 = ((off + 1 : ℕ) : ℤ) by push_cast; ring, ih _ _ (by simp; omega)]
    congr 1
    have hoff : off < dst.length := by omega
    rw [List.take_add_one, List.take_set_of_le (le_refl off), List.getElem?_set_self hoff,
      List.drop_set_of_lt (by omega)]
    simp only [Option.toList_some, List.append_assoc, List.cons_append, List.nil_append,
      List.length_cons]
    rw [show off + 1 + xs.length = off + (xs.length + 1) by omega]

theorem subrange_ok (l : List α) (lo hi : ℕ) (h1 : lo ≤ hi) (h2 : hi ≤ l.length) :
    subrange l lo hi = .ok ((l.drop lo).take (hi - lo)) := by
  unfold subrange
  rw [if_pos ⟨by omega, by omega, by omega⟩]
  congr 2
  omega

/-! ## C30 — concatenate and flip -/

/-- C30: the copying `concatenate` lists the (converted) elements of the first array, then those of
the second, for every pair of lengths; with one element type it is list append. -/
theorem C30_concat_const (c1 : α → γ) (c2 : β → γ) (dflt : γ) (a1 : List α) (a2 : List β) :
    concatConst c1 c2 dflt a1 a2 = .ok (a1.map c1 ++ a2.map c2) := by
  unfold concatConst
  rw [show ((a1.length : ℕ) : ℤ) = (((a1.map c1).length : ℕ) : ℤ) by simp,
    copyAt_ok _ _ _ (by simp)]
  congr 1
  rw [List.take_left']
  · rw [List.drop_eq_nil_of_le (by simp)]; simp
  · rfl

theorem insertAll_eq (k : ℕ) (dst xs : List α) (h : k ≤ dst.length) :
    concatSecond.insertAll k dst xs = dst.take k ++ xs ++ dst.drop k := by
  induction xs generalizing k dst with
  | nil => simp [concatSecond.insertAll]
  | cons x xs ih =>
    rw [concatSecond.insertAll, ih (k + 1) _ (by simp; omega)]
    have hk : (dst.take k).length = k := by simp [h]
    rw [List.take_append, List.drop_append, hk, List.take_of_length_le (l := dst.take k) (by omega),
      List.drop_eq_nil_of_le (as := dst.take k) (by omega)]
    simp

/-- C30: the overloads taking an rvalue vector give the same list as the copying overload whenever
the two element types are equal (or the elements are quantities of one unit): value categories do
not matter. -/
theorem C30_concat_categories_partial (dflt : α) (a1 a2 : List α) :
    concatConst id id dflt a1 a2 = .ok (a1 ++ a2) ∧
    concatFirst (.same id) dflt a1 a2 = .ok (a1 ++ a2) ∧
    concatSecond (.same id) a1 a2 = a1 ++ a2 := by
  refine ⟨by simp [C30_concat_const], ?_, ?_⟩
  · have := C30_concat_const id id dflt a1 a2
    simp only [List.map_id] at this
    rw [← this]
    simp [concatConst, concatFirst]
  · simp [concatSecond, insertAll_eq]

/-- C30: with a conversion `f` of the elements of the other operand, the rvalue overloads give the
elements of the two operands in order, those of the other operand converted. -/
theorem C30_concat_convert (f : β → α) (dflt : α) (a : List α) (b : List β) :
    concatFirst (.same f) dflt a b = .ok (a ++ b.map f) ∧
    concatFirst (.cast f) dflt a b = .ok (a ++ b.map f) ∧
    concatSecond (.same f) b a = b.map f ++ a ∧
    concatSecond (.cast f) b a = b.map f ++ a := by
  have h := C30_concat_const id f dflt a b
  simp only [List.map_id, concatConst] at h
  exact ⟨h, h, by simp [concatSecond, insertAll_eq], by simp [concatSecond, insertAll_eq]⟩

/-- C30 is false of the code for mixed element types: the rvalue overloads convert to the element
type of the *rvalue* operand.  `concatenate(std::vector<int>{1}, std::vector<double>{0.5})` is
`{1, 0}`, the same call on lvalues is `{1., 0.5}`. -/
theorem C30_mixed_types_false :
    concatFirst (.cast fun q : ℚ => ⌊q⌋) (0 : ℤ) [1] [1 / 2] = .ok [1, 0] ∧
    concatConst (fun z : ℤ => (z : ℚ)) id 0 [1] [(1 / 2 : ℚ)] = .ok [1, 1 / 2] := by
  refine ⟨?_, ?_⟩
  · decide +kernel
  · rw [C30_concat_const]; simp

/-- C30 is false of the code when the element type of the rvalue operand is not convertible to the
other one (`std::complex<double>` to `double`; the trait is tested in the wrong direction,
manips.hpp:91, 116): the other operand is *dropped*: replaced by zeros when it is the second,
omitted when it is the first. -/
theorem C30_not_convertible_false (dflt : α) (a1 : List α) (a2 : List β) :
    concatFirst (.none : Conv α β) dflt a1 a2 = .ok (a1 ++ List.replicate a2.length dflt) ∧
    concatSecond (.none : Conv α β) a2 a1 = a1 := ⟨rfl, rfl⟩

/-- C30: the variadic `concatenate` (right fold) is the concatenation of all arguments, so grouping
does not matter. -/
theorem C30_variadic (dflt : α) (ls : List (List α)) : concatAll dflt ls = .ok ls.flatten := by
  match ls with
  | [] => rfl
  | [a] => simp [concatAll]
  | [a, b] => simp [concatAll, C30_concat_const]
  | a :: b :: c :: rest =>
    rw [concatAll, C30_variadic dflt (b :: c :: rest)]
    · simp [(C30_concat_categories_partial dflt a _).2.2]
    all_goals (intros; simp_all)

/-- C30: laws of concatenation and reversal on the observable results: empty arrays are neutral,
concatenation is associative, `flip` is an involution and reverses concatenations; for every value
category and container. -/
theorem C30_laws (dflt : α) (a b c : List α) (cat cat' : Cat) (k : Cont) :
    concatConst id id dflt a [] = .ok a ∧ concatConst id id dflt [] a = .ok a ∧
    (concatConst id id dflt a b >>= fun r => concatConst id id dflt r c)
      = (concatConst id id dflt b c >>= fun r => concatConst id id dflt a r) ∧
    (flip cat k a).1.length = a.length ∧
    (∀ i (h : i < a.length), (flip cat k a).1[i]? = some (a[a.length - 1 - i]'(by omega))) ∧
    (flip cat' k (flip cat k a).1).1 = a ∧
    (concatConst id id dflt a b >>= fun r => .ok (flip cat k r).1)
      = concatConst id id dflt (flip cat k b).1 (flip cat k a).1 := by
  have hf : ∀ (cat : Cat) (l : List α), (flip cat k l).1 = l.reverse := by
    intro cat l; cases cat <;> rfl
  simp only [C30_concat_const, hf, List.map_id, Res.bind_ok, List.append_nil, List.nil_append,
    List.append_assoc, List.length_reverse, List.reverse_reverse, List.reverse_append, true_and,
    and_true]
  intro i h
  rw [List.getElem?_eq_getElem (by simpa using h), List.getElem_reverse]

/-- C30/C04: `flip` of a non-const lvalue reverses the caller's array; of a const lvalue it does
not. -/
theorem C30_flip_lvalue_false (k : Cont) (a : List α) :
    (flip .lvalue k a).2 = a.reverse ∧ (flip .constLvalue k a).2 = a := ⟨rfl, rfl⟩

/-! ## C46 — zero_padding, subvector -/

/-- C46: `zero_padding(v, n)` has `n` elements: those of `v` (the first `n` of them), then zeros;
the copying and the moving overload agree; all lengths. -/
theorem C46_zero_padding [Zero α] (v : List α) (n : ℕ) :
    zeroPadConst v n = .ok (v.take n ++ List.replicate (n - v.length) 0) ∧
    zeroPadMove v n = v.take n ++ List.replicate (n - v.length) 0 ∧
    (v.take n ++ List.replicate (n - v.length) (0 : α)).length = n := by
  refine ⟨?_, ?_, by simp; omega⟩
  · unfold zeroPadConst
    rw [show (0 : ℤ) = ((0 : ℕ) : ℤ) by rfl, subrange_ok v 0 _ (by omega) (by omega)]
    simp only [Res.bind_ok]
    rw [copyAt_ok _ _ _ (by simp)]
    rcases le_total n v.length with h | h
    · simp [h]
    · simp [h]
  · unfold zeroPadMove
    split_ifs with h
    · rw [show n - v.length = 0 by omega]; simp
    · rw [List.take_of_length_le (by omega)]

/-- C46, element view. -/
theorem C46_elements [Zero α] (v : List α) (n : ℕ) :
    ∃ r, zeroPadConst v n = .ok r ∧ r.length = n ∧
      ∀ i, i < n → r[i]? = some (if h : i < v.length then v[i] else 0) := by
  obtain ⟨h1, _, h3⟩ := C46_zero_padding v n
  refine ⟨_, h1, h3, fun i hi => ?_⟩
  by_cases h : i < v.length
  · rw [dif_pos h, List.getElem?_append_left (by simp; omega), List.getElem?_take_of_lt hi,
      List.getElem?_eq_getElem h]
  · rw [dif_neg h, List.getElem?_append_right (by simp; omega), List.getElem?_replicate]
    rw [if_pos (by simp; omega)]

/-- C46 (partial): `subvector(v, len, offset)` is `v[offset .. offset+len)` as long as that range is
inside `v`; with offset 0 it is the prefix of at most `len` elements.  Missing: `len` is clamped to
the size of `v` without taking the offset into account (utils.hpp:46), so other arguments read out of
bounds (`C46_subvector_false`). -/
theorem C46_subvector_partial (v : List α) (len offset : ℕ) :
    (offset + len ≤ v.length → subvector v len offset = .ok ((v.drop offset).take len)) ∧
    subvector v len 0 = .ok (v.take len) := by
  constructor
  · intro h
    unfold subvector
    simp only []
    rw [show min (len : ℤ) (v.length : ℤ) = (len : ℤ) by omega,
      show (offset : ℤ) + len = ((offset + len : ℕ) : ℤ) by push_cast; ring,
      subrange_ok v offset _ (by omega) h]
    simp
  · unfold subvector
    simp only []
    rw [show (0 : ℤ) + min (len : ℤ) (v.length : ℤ) = ((min len v.length : ℕ) : ℤ) by omega,
      show (0 : ℤ) = ((0 : ℕ) : ℤ) by rfl, subrange_ok v 0 _ (by omega) (by omega)]
    simp

/-- C46 ("never reads outside `v`") is false of the code: any positive offset with
`offset + min(len, size) > size` is out of bounds, e.g. `subvector(v, v.size(), 1)`; a negative
length too. -/
theorem C46_subvector_false (v : List α) (len offset : ℤ) :
    (v.length < offset + min len v.length → subvector v len offset = .ub) ∧
    (len < 0 → subvector v len offset = .ub) ∧
    (1 ≤ v.length → subvector v v.length 1 = .ub) := by
  refine ⟨fun h => ?_, fun h => ?_, fun h => ?_⟩ <;> (unfold subvector subrange; rw [if_neg]; omega)

/-! ## C44 — fftshift -/

/-- C44: the const overload of `fftshift` agrees with the rotating one for every non-empty array and
`ifftshift` for every array. -/
theorem C44_overloads_agree_partial (dflt : α) (a : List α) :
    (a ≠ [] → fftshiftConst dflt a = .ok (fftshiftMove a)) ∧
    ifftshiftConst dflt a = .ok (ifftshiftMove a) := by
  constructor
  · intro hne
    have hl : 0 < a.length := List.length_pos_iff.mpr hne
    unfold fftshiftConst fftshiftMove rotateAt
    have ho : Int.tdiv ((a.length : ℤ) - 1) 2 + 1 = (((a.length + 1) / 2 : ℕ) : ℤ) := by
      rw [show (a.length : ℤ) - 1 = ((a.length - 1 : ℕ) : ℤ) by omega,
        show (2 : ℤ) = ((2 : ℕ) : ℤ) by rfl, ← Int.ofNat_tdiv]
      omega
    simp only [ho]
    rw [subrange_ok a _ _ (by omega) (by omega), show (0 : ℤ) = ((0 : ℕ) : ℤ) by rfl]
    simp only [Res.bind_ok]
    rw [copyAt_ok _ _ _ (by simp), subrange_ok a 0 _ (by omega) (by omega)]
    simp only [Res.bind_ok]
    rw [copyAt_ok _ _ _ (by simp; omega)]
    congr 1
    have e : a.length - (a.length + 1) / 2 = a.length / 2 := by omega
    simp only [List.take_zero, List.nil_append, List.length_take, List.length_drop,
      Nat.sub_zero, Nat.zero_add, List.drop_replicate]
    rw [List.take_of_length_le (l := a.drop _) (by simp), List.take_left' (by rw [List.length_drop]; omega)]
    simp
    omega
  · unfold ifftshiftConst ifftshiftMove rotateAt
    simp only []
    rw [subrange_ok a _ _ (by omega) (by omega), show (0 : ℤ) = ((0 : ℕ) : ℤ) by rfl]
    simp only [Res.bind_ok]
    rw [copyAt_ok _ _ _ (by simp), subrange_ok a 0 _ (by omega) (by omega)]
    simp only [Res.bind_ok]
    rw [copyAt_ok _ _ _ (by simp; omega)]
    congr 1
    simp only [List.take_zero, List.nil_append, List.length_take, List.length_drop,
      Nat.sub_zero, Nat.zero_add, List.drop_replicate]
    rw [List.take_of_length_le (l := a.drop _) (by simp), List.take_left' (by rw [List.length_drop]; omega)]
    simp
    omega

/-- C44 is false of the code for an empty const array: the unsigned `size() - 1` makes the offset 1
and the copied range invalid. -/
theorem C44_empty_false (dflt : α) : fftshiftConst dflt ([] : List α) = .ub := rfl

theorem rotateAt_eq (l : List α) (k : ℕ) (h : k ≤ l.length) : rotateAt l k = l.rotate k := by
  rw [rotateAt, List.rotate_eq_drop_append_take h]

/-- C44: `fftshift` and `ifftshift` are inverse to each other (both orders), preserve the length and
the elements, and move element `0` to index `n / 2` and back; for every length. -/
theorem C44_inverse (a : List α) :
    ifftshiftMove (fftshiftMove a) = a ∧ fftshiftMove (ifftshiftMove a) = a ∧
    (fftshiftMove a).length = a.length ∧ (fftshiftMove a).Perm a ∧ (ifftshiftMove a).Perm a ∧
    (∀ x, a.head? = some x → (fftshiftMove a)[a.length / 2]? = some x) := by
  have e1 : fftshiftMove a = a.rotate ((a.length + 1) / 2) := rotateAt_eq _ _ (by omega)
  have e2 : ifftshiftMove a = a.rotate (a.length / 2) := rotateAt_eq _ _ (by omega)
  have hsum : (a.length + 1) / 2 + a.length / 2 = a.length := by omega
  refine ⟨?_, ?_, by rw [e1, List.length_rotate], by rw [e1]; exact List.rotate_perm _ _,
    by rw [e2]; exact List.rotate_perm _ _, fun x hx => ?_⟩
  · have : ifftshiftMove (fftshiftMove a) = (fftshiftMove a).rotate ((fftshiftMove a).length / 2) :=
      rotateAt_eq _ _ (by omega)
    rw [this, e1, List.length_rotate, List.rotate_rotate, hsum, List.rotate_length]
  · have : fftshiftMove (ifftshiftMove a)
        = (ifftshiftMove a).rotate (((ifftshiftMove a).length + 1) / 2) := rotateAt_eq _ _ (by omega)
    rw [this, e2, List.length_rotate, List.rotate_rotate, Nat.add_comm, hsum, List.rotate_length]
  · have hl : 0 < a.length := by
      cases a with
      | nil => simp at hx
      | cons _ _ => simp
    unfold fftshiftMove rotateAt
    rw [List.getElem?_append_right (by simp; omega)]
    rw [show a.length / 2 - (a.drop ((a.length + 1) / 2)).length = 0 by simp; omega,
      List.getElem?_take_of_lt (by omega), ← List.head?_eq_getElem?, hx]

/-- C44: element view: `fftshift(a)[i] = a[(i + (n+1)/2) mod n]`. -/
theorem C44_elements (a : List α) (i : ℕ) (h : i < a.length) :
    (fftshiftMove a)[i]? = a[(i + (a.length + 1) / 2) % a.length]? ∧
    (ifftshiftMove a)[i]? = a[(i + a.length / 2) % a.length]? := by
  have e1 : fftshiftMove a = a.rotate ((a.length + 1) / 2) := rotateAt_eq _ _ (by omega)
  have e2 : ifftshiftMove a = a.rotate (a.length / 2) := rotateAt_eq _ _ (by omega)
  rw [e1, e2, List.getElem?_rotate h, List.getElem?_rotate h]
  exact ⟨rfl, rfl⟩

/-- C44/C04: `fftshift` and `ifftshift` of a non-const lvalue vector empty the caller's vector. -/
theorem C44_lvalue_false (dflt : α) (a : List α) :
    (∃ r, fftshift .lvalue .vec dflt a = .ok (r, [])) ∧
    (∃ r, ifftshift .lvalue .vec dflt a = .ok (r, [])) := ⟨⟨_, rfl⟩, ⟨_, rfl⟩⟩

/-! ## C45 — frequencies -/

section freq
variable {K : Type} [Field K] [LinearOrder K] [IsStrictOrderedRing K]

/-- C45: `fftfreq(n, d)` for every `n > 0` and `d > 0`: `n` elements, `k/(n d)` for
`k < (n+1)/2` and `(k-n)/(n d)` above; `fftshift` of it is strictly increasing. -/
theorem C45_fftfreq (n : ℕ) (d : K) (hn : 0 < n) (hd : 0 < d) :
    ∃ r, fftfreq n d = .ok r ∧ r.length = n ∧
      (∀ k, k < (n + 1) / 2 → r[k]? = some ((k : K) / (n * d))) ∧
      (∀ k, (n + 1) / 2 ≤ k → k < n → r[k]? = some (((k : K) - n) / (n * d))) ∧
      (fftshiftMove r).Pairwise (· < ·) := by
  have hlen : ((iota (-((n / 2 : ℕ) : K)) n).map fun v => v / (d * (n : K))).length = n := by
    simp [iota_length]
  refine ⟨_, by simp [fftfreq, hn, hd]; rfl, ?_, ?_, ?_, ?_⟩
  · simp [ifftshiftMove, rotateAt, iota_length]; omega
  · intro k hk
    rw [(C44_elements _ k (by rw [hlen]; omega)).2, hlen, iota_eq, List.map_map, List.getElem?_map,
      Nat.mod_eq_of_lt (by omega), List.getElem?_range (by omega)]
    simp only [Option.map_some, Function.comp]
    congr 1
    push_cast
    rw [mul_comm d]
    congr 1
    ring
  · intro k h1 h2
    rw [(C44_elements _ k (by rw [hlen]; omega)).2, hlen, iota_eq, List.map_map, List.getElem?_map]
    have : (k + n / 2) % n = k + n / 2 - n := by
      rw [Nat.mod_eq_sub_mod (by omega), Nat.mod_eq_of_lt (by omega)]
    rw [this, List.getElem?_range (by omega)]
    simp only [Option.map_some, Function.comp]
    congr 1
    rw [Nat.cast_sub (by omega)]
    push_cast
    rw [mul_comm d]
    congr 1
    ring
  · rw [(C44_inverse _).2.1, iota_eq, List.map_map, List.pairwise_map]
    refine List.Pairwise.imp ?_ List.pairwise_lt_range
    intro i j hij
    have hn' : (0 : K) < n := by exact_mod_cast hn
    have : (i : K) < j := by exact_mod_cast hij
    simp only [Function.comp]
    apply div_lt_div_of_pos_right _ (mul_pos hd hn')
    linarith

/-- C45: `rfftfreq(n, d)` has `n/2 + 1` elements `k/(n d)`. -/
theorem C45_rfftfreq (n : ℕ) (d : K) (hn : 0 < n) (hd : 0 < d) :
    ∃ r, rfftfreq n d = .ok r ∧ r.length = n / 2 + 1 ∧
      ∀ k, k ≤ n / 2 → r[k]? = some ((k : K) / (n * d)) := by
  refine ⟨_, by simp [rfftfreq, hn, hd]; rfl, by simp [iota_length], fun k hk => ?_⟩
  rw [iota_eq, List.map_map, List.getElem?_map, List.getElem?_range (by omega)]
  simp [mul_comm]

/-- C45: a zero length or a non-positive spacing is a violated requirement. -/
theorem C45_requirements (n : ℕ) (d : K) :
    (n = 0 ∨ d ≤ 0 → fftfreq n d = .ub) ∧ (n = 0 ∨ d ≤ 0 → rfftfreq n d = .ub) := by
  have : ∀ n : ℕ, n = 0 ∨ d ≤ 0 → (0 < n → ¬ 0 < d) := by
    rintro n (rfl | h) hn
    · omega
    · exact not_lt.mpr h
  refine ⟨fun h => ?_, fun h => ?_⟩
  · unfold fftfreq
    by_cases hn : 0 < n
    · have := this n h hn; simp [hn, this]
    · simp [hn]
  · unfold rfftfreq
    by_cases hn : 0 < n
    · have := this n h hn; simp [hn, this]
    · simp [hn]

end freq

example : fftshiftMove [0, 1, 2, 3, (4 : ℕ)] = [3, 4, 0, 1, 2] := by decide
example : fftfreq 4 (1 / 2 : ℚ) = .ok [0, 1 / 2, -1, -1 / 2] := by decide +kernel

end SciCpp
