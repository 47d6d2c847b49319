import Verif.Model.Ops
import Verif.Proofs.RFl
import Verif.Props.Numeric
import Mathlib.Tactic.Linarith
import Mathlib.Tactic.FieldSimp
import Mathlib.Algebra.Order.Round
/-
  Property theorems C76: the array arithmetic operators.
-/
namespace SciCpp

universe u
variable {α : Type u}

/-! ## C76 — array arithmetic operators -/

theorem transformR_ok_iff (f : α → Res α) (a r : List α) :
    transformR f a = .ok r ↔ List.Forall₂ (fun x y => f x = .ok y) a r := by
  induction a generalizing r with
  | nil => simp [transformR, eq_comm]
  | cons x xs ih =>
    unfold transformR
    cases hf : f x with
    | ub => simp [List.forall₂_cons_left_iff, hf]
    | ok y =>
      rw [Res.bind_ok]
      cases ht : transformR f xs with
      | ub =>
        simp only [Res.bind_ub, List.forall₂_cons_left_iff, hf]
        constructor
        · simp
        · rintro ⟨b, bs, _, h, _⟩
          rw [← ih, ht] at h; cases h
      | ok ys =>
        simp only [Res.bind_ok, Res.ok.injEq, List.forall₂_cons_left_iff, hf, ← ih, ht]
        constructor
        · rintro rfl; exact ⟨y, ys, rfl, rfl, rfl⟩
        · rintro ⟨b, bs, rfl, rfl, rfl⟩; rfl

theorem mapUR_ok_iff (cat : Cat) (c : Cont) (f : α → Res α) (a r a' : List α) :
    mapUR cat c f a = .ok (r, a') ↔ List.Forall₂ (fun x y => f x = .ok y) a r ∧
      a' = (if cat = .constLvalue then a else movedFrom c r) := by
  unfold mapUR
  cases ht : transformR f a with
  | ub =>
    simp only [Res.bind_ub]
    constructor
    · intro h; cases h
    · rintro ⟨h, _⟩; rw [← transformR_ok_iff, ht] at h; cases h
  | ok ys =>
    rw [← transformR_ok_iff, ht, Res.bind_ok]
    cases cat <;> simp <;> intro h <;> subst h <;> simp [eq_comm]

/-- C76: an array on the left and a scalar on the right.  For every element type whose `+` and `*`
commute (as all C++ arithmetic types), the operator is defined exactly when the element operation
is defined on every element, and the `i`-th result is `a[i] ⊙ s` in this order; a const operand is
unchanged. -/
theorem C76_array_scalar (E : Elt α) (hadd : ∀ x y, E.bin .add x y = E.bin .add y x)
    (hmul : ∀ x y, E.bin .mul x y = E.bin .mul y x) (o : ArOp) (cat : Cat) (c : Cont)
    (a : List α) (s : α) (r a' : List α) :
    opArrScalar E o cat c a s = .ok (r, a') ↔
      List.Forall₂ (fun x y => E.bin o x s = .ok y) a r ∧
      a' = (if cat = .constLvalue then a else movedFrom c r) := by
  cases o <;> simp only [opArrScalar, mapUR_ok_iff]
  · simp only [hadd s]
  · simp only [hmul s]

/-- C76: a scalar on the left and an array on the right. -/
theorem C76_scalar_array (E : Elt α) (o : ArOp) (cat : Cat) (c : Cont)
    (a : List α) (s : α) (r a' : List α) :
    opScalarArr E o cat c s a = .ok (r, a') ↔
      List.Forall₂ (fun x y => E.bin o s x = .ok y) a r ∧
      a' = (if cat = .constLvalue then a else movedFrom c r) := by
  cases o <;> simp only [opScalarArr, mapUR_ok_iff]

/-- C76: unary minus. -/
theorem C76_negate (E : Elt α) (cat : Cat) (c : Cont) (a r a' : List α) :
    opNeg E cat c a = .ok (r, a') ↔
      List.Forall₂ (fun x y => E.neg x = .ok y) a r ∧
      a' = (if cat = .constLvalue then a else movedFrom c r) := by
  simp only [opNeg, mapUR_ok_iff]

theorem transformR2_ok_iff (f : α → α → Res α) (a b r : List α) (h : a.length = b.length) :
    transformR2 f a b = .ok r ↔ r.length = a.length ∧
      ∀ i (h1 : i < a.length) (h2 : i < b.length) (h3 : i < r.length), f a[i] b[i] = .ok r[i] := by
  induction a generalizing b r with
  | nil =>
    match b, h with
    | [], _ =>
      simp only [transformR2, Res.ok.injEq, List.length_nil, Nat.not_lt_zero, IsEmpty.forall_iff,
        implies_true, and_true, List.length_eq_zero_iff, eq_comm]
  | cons x xs ih =>
    match b, h with
    | y :: ys, h =>
      have hl : xs.length = ys.length := by simpa using h
      unfold transformR2
      constructor
      · intro hr
        cases hf : f x y with
        | ub => rw [hf] at hr; cases hr
        | ok v =>
          rw [hf, Res.bind_ok] at hr
          cases ht : transformR2 f xs ys with
          | ub => rw [ht] at hr; cases hr
          | ok vs =>
            rw [ht, Res.bind_ok] at hr
            cases hr
            obtain ⟨l, e⟩ := (ih ys vs hl).mp ht
            refine ⟨by simp [l], ?_⟩
            intro i h1 h2 h3
            cases i with
            | zero => simpa using hf
            | succ j =>
              simpa using e j (by simpa using h1) (by simpa using h2) (by simpa using h3)
      · rintro ⟨l, e⟩
        match r, l with
        | v :: vs, l =>
          have h0 := e 0 (by simp) (by simp) (by simp)
          simp only [List.getElem_cons_zero] at h0
          have ht := (ih ys vs hl).mpr ⟨by simpa using l, fun i h1 h2 h3 => by
            exact e (i + 1) (Nat.succ_lt_succ h1) (Nat.succ_lt_succ h2) (Nat.succ_lt_succ h3)⟩
          rw [h0, Res.bind_ok, ht]; rfl

/-- C76: two arrays.  The operator requires equal lengths, is defined exactly when the element
operation is defined on every pair, and the `i`-th result is `a[i] ⊙ b[i]`, in this order, for
every combination of temporaries and named operands; named operands are unchanged. -/
theorem C76_array_array (E : Elt α) (o : ArOp) (cat1 cat2 : Cat) (c1 c2 : Cont) (a b : List α) :
    (a.length ≠ b.length → opArrArr E o cat1 cat2 c1 c2 a b = .ub) ∧
    (∀ r a' b', opArrArr E o cat1 cat2 c1 c2 a b = .ok (r, a', b') →
      a.length = b.length ∧ r.length = a.length ∧
      (∀ i (_ : i < a.length) (_ : i < b.length) (_ : i < r.length),
        E.bin o a[i] b[i] = .ok r[i]) ∧
      (cat1 ≠ .rvalue → a' = a) ∧ (cat2 ≠ .rvalue → b' = b)) ∧
    (a.length = b.length →
      (∀ i (_ : i < a.length) (_ : i < b.length), ∃ v, E.bin o a[i] b[i] = .ok v) →
      ∃ r a' b', opArrArr E o cat1 cat2 c1 c2 a b = .ok (r, a', b')) := by
  refine ⟨?_, ?_, ?_⟩
  · intro h
    unfold opArrArr
    rw [require_beq_ne h]; rfl
  · intro r a' b' h
    unfold opArrArr at h
    by_cases hl : a.length = b.length
    · simp only [hl, beq_self_eq_true, require_true, Res.bind_ok] at h
      cases ht : transformR2 (E.bin o) a b with
      | ub => rw [ht] at h; cases h
      | ok vs =>
        obtain ⟨l, e⟩ := (transformR2_ok_iff _ _ _ _ hl).mp ht
        rw [ht, Res.bind_ok] at h
        have key : r = vs ∧ (cat1 ≠ .rvalue → a' = a) ∧ (cat2 ≠ .rvalue → b' = b) := by
          cases cat1 <;> cases cat2 <;> simp [mapBinaryDest] at h ⊢ <;> simp [h]
        obtain ⟨rfl, k⟩ := key
        exact ⟨hl, l, e, k⟩
    · rw [require_beq_ne hl] at h; cases h
  · intro hl hd
    have : ∃ r, transformR2 (E.bin o) a b = .ok r := by
      clear cat1 cat2 c1 c2
      induction a generalizing b with
      | nil => exact ⟨[], rfl⟩
      | cons x xs ih =>
        match b, hl with
        | y :: ys, hl =>
          obtain ⟨v, hv⟩ := hd 0 (by simp) (by simp)
          obtain ⟨vs, hvs⟩ := ih ys (by simpa using hl) (fun i h1 h2 => by
            exact hd (i + 1) (Nat.succ_lt_succ h1) (Nat.succ_lt_succ h2))
          simp only [List.getElem_cons_zero] at hv
          exact ⟨v :: vs, by unfold transformR2; rw [hv, Res.bind_ok, hvs]; rfl⟩
    obtain ⟨r, hr⟩ := this
    unfold opArrArr
    rw [hr]
    simp only [hl, beq_self_eq_true, require_true, Res.bind_ok]
    cases mapBinaryDest cat1 cat2 true true
    · exact ⟨_, _, _, rfl⟩
    · exact ⟨_, _, _, rfl⟩
    · exact ⟨_, _, _, rfl⟩

/-- C76: masks: `!`, `&&` and `||` act element by element, and De Morgan's laws hold. -/
theorem C76_masks (a b : List Bool) (h : a.length = b.length) :
    opNot a = a.map not ∧ opAnd a b = .ok (List.zipWith and a b) ∧
    opOr a b = .ok (List.zipWith or a b) ∧
    (opNot <$> opAnd a b) = opOr (opNot a) (opNot b) := by
  have h' : (opNot a).length = (opNot b).length := by simpa [opNot] using h
  refine ⟨rfl, map2_eq _ a b h, map2_eq _ a b h, ?_⟩
  rw [show opAnd a b = .ok (List.zipWith and a b) from map2_eq _ a b h,
    show opOr (opNot a) (opNot b) = .ok (List.zipWith or (opNot a) (opNot b)) from map2_eq _ _ _ h',
    Res.map_ok]
  congr 1
  unfold opNot
  rw [List.map_zipWith, List.zipWith_map]
  simp

/-- C76: floating point elements meet the commutativity hypotheses, for every rounding. -/
theorem C76_float_comm (rnd : ℚ → ℚ) (x y : RFl rnd) :
    (eltFl rnd).bin .add x y = (eltFl rnd).bin .add y x ∧
    (eltFl rnd).bin .mul x y = (eltFl rnd).bin .mul y x := by
  rcases RFl.cases x with rfl | ⟨s, rfl⟩ | ⟨p, rfl⟩ <;>
  rcases RFl.cases y with rfl | ⟨t, rfl⟩ | ⟨q, rfl⟩ <;>
  refine ⟨?_, ?_⟩ <;> refine congrArg Res.ok ?_
  all_goals first
    | rfl
    | (cases s <;> cases t <;> rfl)
    | (show RFl.fin (rnd _) = RFl.fin (rnd _); simp only [add_comm, mul_comm])

/-- C76: so do signed integers of any width. -/
theorem C76_int_comm (lo hi x y : ℤ) :
    (eltInt lo hi).bin .add x y = (eltInt lo hi).bin .add y x ∧
    (eltInt lo hi).bin .mul x y = (eltInt lo hi).bin .mul y x := by
  simp [eltInt, add_comm, mul_comm]

/-- C76: `%` on floating point elements (finite, non-zero divisor): the remainder of the truncated
quotient — a multiple of the divisor away from the dividend, smaller than the divisor in absolute
value, with the sign of the dividend, and computed without rounding error. -/
theorem C76_modulus_float (rnd : ℚ → ℚ) (x y : ℚ) (hy : y ≠ 0) :
    ∃ r : ℚ, (eltFl rnd).bin .mod (RFl.fin x) (RFl.fin y) = .ok (RFl.fin r) ∧
      (∃ n : ℤ, x = n * y + r) ∧ |r| < |y| ∧ 0 ≤ x * r := by
  refine ⟨x - y * (truncK (x / y) : ℚ), ?_, ⟨truncK (x / y), by ring⟩, ?_⟩
  · show Res.ok (fmodFl _ _) = _
    have : fmodFl (RFl.fin x : RFl rnd) (RFl.fin y)
        = if y = 0 then RFl.nan else RFl.fin (x - y * (truncK (x / y) : ℚ)) := rfl
    rw [this, if_neg hy]
  · set q := x / y with hq
    have hx : x = y * q := by rw [hq]; field_simp
    have hr : x - y * (truncK q : ℚ) = y * (q - truncK q) := by rw [mul_sub, ← hx]
    rw [hr, abs_mul]
    have hy' : 0 < |y| := abs_pos.mpr hy
    have hy2 : 0 < y * y := mul_self_pos.mpr hy
    unfold truncK
    split_ifs with h0
    · have h1 := Int.floor_le q
      have h2 := Int.lt_floor_add_one q
      constructor
      · rw [abs_of_nonneg (show 0 ≤ q - (⌊q⌋ : ℚ) by linarith)]; nlinarith
      · rw [show x * (y * (q - (⌊q⌋ : ℚ))) = (y * y) * (q * (q - ⌊q⌋)) by rw [hx]; ring]
        exact mul_nonneg hy2.le (mul_nonneg h0 (by linarith))
    · have h1 := Int.le_ceil q
      have h2 := Int.ceil_lt_add_one q
      constructor
      · rw [abs_of_nonpos (show q - (⌈q⌉ : ℚ) ≤ 0 by linarith)]; nlinarith
      · rw [show x * (y * (q - (⌈q⌉ : ℚ))) = (y * y) * ((-q) * (⌈q⌉ - q)) by rw [hx]; ring]
        exact mul_nonneg hy2.le (mul_nonneg (by linarith) (by linarith))

/-- C76: `%` with a zero divisor is NaN for floating point elements and undefined for integers. -/
theorem C76_modulus_zero (rnd : ℚ → ℚ) (x : RFl rnd) (lo hi n : ℤ) :
    (eltFl rnd).bin .mod x 0 = .ok RFl.nan ∧ (eltInt lo hi).bin .mod n 0 = .ub ∧
    (eltInt lo hi).bin .div n 0 = .ub := by
  refine ⟨?_, rfl, rfl⟩
  rcases RFl.cases x with rfl | ⟨s, rfl⟩ | ⟨q, rfl⟩ <;> rfl

/-- C76: integers: quotient and remainder of arrays recompose the dividend, whenever defined. -/
theorem C76_int_div_mod (lo hi x y q r : ℤ)
    (hq : (eltInt lo hi).bin .div x y = .ok q) (hr : (eltInt lo hi).bin .mod x y = .ok r) :
    q * y + r = x ∧ |r| < |y| ∧ 0 ≤ x * r := by
  by_cases hy : y = 0
  · subst hy; cases hq
  · simp only [eltInt, hy, if_false, chk] at hq hr
    split_ifs at hq hr with h1
    simp only [Res.bind_ok, Res.ok.injEq] at hq hr
    subst hq; subst hr
    refine ⟨by rw [mul_comm]; exact Int.mul_tdiv_add_tmod x y, ?_, ?_⟩
    · have := Int.tmod_lt_of_pos x (abs_pos.mpr hy)
      have h2 := Int.lt_tmod_of_pos x (abs_pos.mpr hy)
      have e : x.tmod |y| = x.tmod y := by
        rcases abs_choice y with h | h <;> rw [h]
        exact Int.tmod_neg x y
      rw [e] at this h2
      exact abs_lt.mpr ⟨h2, this⟩
    · rcases le_total 0 x with h | h
      · exact mul_nonneg h (Int.tmod_nonneg y h)
      · have := Int.tmod_nonneg y (neg_nonneg.mpr h)
        rw [Int.neg_tmod] at this
        nlinarith

/-- C76: signed overflow makes array arithmetic undefined: `{INT_MAX} + 1`, `-{INT_MIN}`,
`{INT_MIN} / -1`. -/
theorem C76_int_overflow_false (cat : Cat) (c : Cont) :
    opArrScalar (eltInt (-2147483648) 2147483647) .add cat c [2147483647] 1 = .ub ∧
    opNeg (eltInt (-2147483648) 2147483647) cat c [-2147483648] = .ub ∧
    opArrScalar (eltInt (-2147483648) 2147483647) .div cat c [-2147483648] (-1) = .ub := by
  refine ⟨?_, ?_, ?_⟩ <;> cases cat <;> cases c <;> decide

/-- C76: what the element operators of floating point arrays compute.  On finite elements each of
`+ - * /` is the exact result of the operation, operands in this order, rounded once; negation is
exact; a finite number modulo an infinity is itself, and an infinite dividend gives NaN. -/
theorem C76_float_ops (rnd : ℚ → ℚ) (x y : ℚ) (b : Bool) :
    (eltFl rnd).bin .add (RFl.fin x) (RFl.fin y) = .ok (RFl.fin (rnd (x + y))) ∧
    (eltFl rnd).bin .sub (RFl.fin x) (RFl.fin y) = .ok (RFl.fin (rnd (x - y))) ∧
    (eltFl rnd).bin .mul (RFl.fin x) (RFl.fin y) = .ok (RFl.fin (rnd (x * y))) ∧
    (y ≠ 0 → (eltFl rnd).bin .div (RFl.fin x) (RFl.fin y) = .ok (RFl.fin (rnd (x / y)))) ∧
    (eltFl rnd).neg (RFl.fin x) = .ok (RFl.fin (-x)) ∧
    (eltFl rnd).bin .mod (RFl.fin x) (RFl.inf b) = .ok (RFl.fin x) ∧
    (eltFl rnd).bin .mod (RFl.inf b) (RFl.fin y) = .ok RFl.nan := by
  refine ⟨rfl, ?_, rfl, ?_, rfl, rfl, rfl⟩
  · rw [sub_eq_add_neg]; rfl
  · intro hy
    have h : Fl.div (.fin x) (.fin y) = .fin (x / y) := by simp only [Fl.div, if_neg hy]
    exact congrArg (fun z => Res.ok (RFl.round rnd z)) h

/-- C76: what the element operators of signed integer arrays compute: the exact result when it is
representable, undefined otherwise; the quotient truncates towards zero. -/
theorem C76_int_ops (lo hi x y r : ℤ) :
    ((eltInt lo hi).bin .add x y = .ok r ↔ r = x + y ∧ lo ≤ r ∧ r ≤ hi) ∧
    ((eltInt lo hi).bin .sub x y = .ok r ↔ r = x - y ∧ lo ≤ r ∧ r ≤ hi) ∧
    ((eltInt lo hi).bin .mul x y = .ok r ↔ r = x * y ∧ lo ≤ r ∧ r ≤ hi) ∧
    ((eltInt lo hi).neg x = .ok r ↔ r = -x ∧ lo ≤ r ∧ r ≤ hi) ∧
    ((eltInt lo hi).bin .div x y = .ok r ↔ y ≠ 0 ∧ lo ≤ r ∧ r ≤ hi ∧ |x - r * y| < |y| ∧
      0 ≤ x * (x - r * y)) := by
  have hc : ∀ n, chk lo hi n = .ok r ↔ r = n ∧ lo ≤ r ∧ r ≤ hi := by
    intro n
    unfold chk
    split_ifs with h
    · constructor
      · intro e; injection e with e; subst e; exact ⟨rfl, h⟩
      · rintro ⟨rfl, _⟩; rfl
    · constructor
      · intro e; cases e
      · rintro ⟨rfl, h'⟩; exact absurd h' h
  refine ⟨hc _, hc _, hc _, hc _, ?_⟩
  by_cases hy : y = 0
  · subst hy
    constructor
    · intro e; cases e
    · rintro ⟨h, _⟩; exact absurd rfl h
  show (if y = 0 then Res.ub else chk lo hi (x.tdiv y)) = _ ↔ _
  rw [if_neg hy, hc]
  have hmod : x - x.tdiv y * y = x.tmod y := by
    have := Int.mul_tdiv_add_tmod x y
    rw [mul_comm] at this; omega
  have hlt : |x.tmod y| < |y| := by
    have h1 := Int.tmod_lt_of_pos x (abs_pos.mpr hy)
    have h2 := Int.lt_tmod_of_pos x (abs_pos.mpr hy)
    have e : x.tmod |y| = x.tmod y := by
      rcases abs_choice y with h | h <;> rw [h]
      exact Int.tmod_neg x y
    rw [e] at h1 h2
    exact abs_lt.mpr ⟨h2, h1⟩
  have hsg : 0 ≤ x * x.tmod y := by
    rcases le_total 0 x with h | h
    · exact mul_nonneg h (Int.tmod_nonneg y h)
    · have := Int.tmod_nonneg y (neg_nonneg.mpr h)
      rw [Int.neg_tmod] at this
      nlinarith
  constructor
  · rintro ⟨rfl, h⟩
    exact ⟨hy, h.1, h.2, by rw [hmod]; exact hlt, by rw [hmod]; exact hsg⟩
  · rintro ⟨_, h1, h2, h3, h4⟩
    refine ⟨?_, h1, h2⟩
    -- two remainders smaller than `|y|` and of the sign of `x` that differ by a multiple of `y`
    set q := x.tdiv y with hq
    set s := x.tmod y with hs
    have he : (x - r * y) - s = (q - r) * y := by rw [← hmod]; ring
    by_contra hne
    have hqr : 1 ≤ |q - r| := by
      have : q - r ≠ 0 := fun h => hne (by omega)
      exact Int.one_le_abs this
    have hbig : |y| ≤ |(x - r * y) - s| := by
      rw [he, abs_mul]; nlinarith [abs_nonneg y]
    rcases lt_trichotomy x 0 with hx | hx | hx
    · have a1 : x - r * y ≤ 0 := by nlinarith
      have a2 : s ≤ 0 := by nlinarith
      rw [abs_of_nonpos a1] at h3
      rw [abs_of_nonpos a2] at hlt
      have : |(x - r * y) - s| < |y| := by rw [abs_lt]; constructor <;> linarith
      omega
    · have hs0 : s = 0 := by rw [hs, hx]; simp
      rw [hs0, sub_zero] at hbig
      omega
    · have a1 : 0 ≤ x - r * y := by nlinarith
      have a2 : 0 ≤ s := by nlinarith
      rw [abs_of_nonneg a1] at h3
      rw [abs_of_nonneg a2] at hlt
      have : |(x - r * y) - s| < |y| := by rw [abs_lt]; constructor <;> linarith
      omega

-- non-vacuity: a mixed expression on 32-bit integers, temporaries and named operands
example : opArrArr (eltInt (-2147483648) 2147483647) .mod .constLvalue .rvalue .vec .vec
    [7, -7, 9] [3, 3, -4] = .ok ([1, -1, 1], [7, -7, 9], []) := by decide
example : opArrScalar (eltInt (-2147483648) 2147483647) .sub .constLvalue .vec [5, 6] 2
    = .ok ([3, 4], [5, 6]) ∧
    opScalarArr (eltInt (-2147483648) 2147483647) .sub .constLvalue .vec 2 [5, 6]
    = .ok ([-3, -4], [5, 6]) := by decide

end SciCpp
