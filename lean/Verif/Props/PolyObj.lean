import Verif.Spec.PolyObj
import Verif.Props.Poly
/-
  Property theorems C141: programs on `Polynomial` objects.
-/
namespace SciCpp
namespace PolyObj
open Polynomial Spec

variable {R : Type} [CommRing R]

theorem ofCoeffs_eq (l : List R) : ofCoeffs l = polyOf l := by
  have key : ∀ (l : List R) (n : ℕ), ((l.zipIdx n).map fun ck => C ck.1 * X ^ ck.2).sum = X ^ n * polyOf l := by
    intro l
    induction l with
    | nil => intro n; simp [polyOf]
    | cons a l ih =>
      intro n
      rw [List.zipIdx_cons, List.map_cons, List.sum_cons, ih, polyOf]
      ring
  unfold ofCoeffs
  rw [key, pow_zero, one_mul]

omit [CommRing R] in
theorem selfLoop_eq (f : R → R → R) (m : List R) : selfLoop f m.length m = .ok (m.map fun a => f a a) := by
  obtain ⟨t, h1, h2, h3⟩ := forN_inv (σ := List R) (n := m.length)
    (f := fun k m => do
      let a ← rd m (k : ℤ)
      let b ← rd m (k : ℤ)
      wr m (k : ℤ) (f a b)) (s := m)
    (fun k t => t.length = m.length ∧ ∀ i, t[i]? = if i < k then (m[i]?).map fun a => f a a else m[i]?)
    ⟨rfl, fun i => by simp⟩ (by
      rintro k hk t ⟨h1, h2⟩
      have hkt : k < t.length := by omega
      have e : t[k] = m[k] := by
        have := h2 k
        rw [if_neg (by omega), List.getElem?_eq_getElem hkt, List.getElem?_eq_getElem hk] at this
        simpa using this
      refine ⟨t.set k (f t[k] t[k]), ?_, by simpa using h1, ?_⟩
      · simp only [rd_nat t k hkt, Res.bind_ok, wr_nat t k _ hkt]
      · intro i
        rw [List.getElem?_set]
        by_cases hi : k = i
        · subst hi
          rw [if_pos rfl, if_pos hkt, if_pos (by omega), List.getElem?_eq_getElem hk, e]
          rfl
        · rw [if_neg hi, h2 i]
          by_cases h : i < k
          · rw [if_pos h, if_pos (by omega)]
          · rw [if_neg h, if_neg (by omega)])
  unfold selfLoop
  rw [h1]
  congr 1
  apply List.ext_getElem?
  intro i
  rw [h3, List.getElem?_map]
  by_cases hi : i < m.length
  · rw [if_pos hi]
  · rw [if_neg hi, List.getElem?_eq_none (by omega)]
    rfl

theorem addSelf_spec (m : List R) : ∃ r, addSelf m = .ok r ∧ r.length = m.length ∧ polyOf r = polyOf m + polyOf m := by
  refine ⟨_, selfLoop_eq _ m, by simp, ?_⟩
  ext i
  rw [coeff_add, coeff_polyOf, coeff_polyOf]
  simp only [List.getD_eq_getElem?_getD, List.getElem?_map]
  cases m[i]? <;> simp

theorem subSelf_spec (m : List R) (hm : m ≠ []) (hl : m.length < 2 ^ 64) :
    ∃ r, subSelf m = .ok r ∧ r.length = m.length ∧ polyOf r = polyOf m - polyOf m := by
  have e : (polyDegree m + 1) % 2 ^ 64 = m.length := by
    rw [polyDegree_eq m hm hl]
    have := List.length_pos_iff.mpr hm
    omega
  refine ⟨_, by unfold subSelf; rw [e]; exact selfLoop_eq _ m, by simp, ?_⟩
  ext i
  rw [coeff_sub, coeff_polyOf, coeff_polyOf]
  simp only [List.getD_eq_getElem?_getD, List.getElem?_map]
  cases m[i]? <;> simp

/-- Objects with a meaning hold its coefficients. -/
def Rel (s : Store R) (e : SState R) : Prop :=
  ∀ i p d, e i = some (p, d) → ∃ c, s i = some c ∧ polyOf c = p ∧ c.length = d + 1 ∧ d + 1 < 2 ^ 64

theorem put_rel {s : Store R} {e e' : SState R} (h : Rel s e) {i : ℕ} {p : R[X]} {d : ℕ} (he : sput e i p d = some e') {c : List R} (hc : polyOf c = p)
    (hl : c.length = d + 1) : ∃ s', put s i c = .ok s' ∧ Rel s' e' := by
  unfold sput at he
  split_ifs at he with hd
  simp only [Option.some.injEq] at he
  subst he
  refine ⟨_, by unfold put; rw [if_pos (by omega)], ?_⟩
  intro j q d' hj
  by_cases hij : j = i
  · subst hij
    rw [Function.update_self] at hj
    simp only [Option.some.injEq, Prod.mk.injEq] at hj
    obtain ⟨rfl, rfl⟩ := hj
    exact ⟨c, by rw [Function.update_self], hc, hl, hd⟩
  · rw [Function.update_of_ne hij] at hj ⊢
    exact h j q d' hj

theorem get_rel {s : Store R} {e : SState R} (h : Rel s e) {i : ℕ} {p : R[X] × ℕ} (he : e i = some p) :
    ∃ c, get s i = .ok c ∧ c ≠ [] ∧ polyOf c = p.1 ∧ c.length = p.2 + 1 ∧ c.length < 2 ^ 64 := by
  obtain ⟨p, d⟩ := p
  obtain ⟨c, h1, h2, h3, h4⟩ := h i p d he
  exact ⟨c, by unfold get; rw [h1], by intro h0; subst h0; simp at h3, h2, h3, by omega⟩

theorem replicate_poly (n : ℕ) : polyOf (List.replicate n (0 : R)) = 0 := by
  ext k
  rw [coeff_polyOf, coeff_zero]
  simp only [List.getD_eq_getElem?_getD, List.getElem?_replicate]
  split_ifs <;> rfl

theorem zeros_length {deg : ℕ} (h : deg + 1 < 2 ^ 64) : (zeros deg : List R).length = deg + 1 := by
  unfold zeros
  rw [List.length_replicate, Nat.mod_eq_of_lt h]

theorem step_new {s : Store R} {e e' : SState R} (h : Rel s e) {i : ℕ} {l : List R} (he : sstep e (.new i l) = some e') :
    ∃ s', step s (.new i l) = .ok s' ∧ Rel s' e' := by
  simp only [sstep] at he
  split_ifs at he with hl
  obtain ⟨s', h1, h2⟩ := put_rel h he (ofCoeffs_eq l).symm (by have := List.length_pos_iff.mpr hl; omega)
  exact ⟨s', by simp only [step]; exact h1, h2⟩

theorem step_zero {s : Store R} {e e' : SState R} (h : Rel s e) {i : ℕ} {deg : ℕ} (he : sstep e (.zero i deg) = some e') :
    ∃ s', step s (.zero i deg) = .ok s' ∧ Rel s' e' := by
  simp only [sstep] at he
  have hd : deg + 1 < 2 ^ 64 := by unfold sput at he; split_ifs at he with hd; exact hd
  obtain ⟨s', h1, h2⟩ := put_rel h he (c := zeros deg) (replicate_poly _) (zeros_length hd)
  exact ⟨s', by simp only [step]; exact h1, h2⟩

theorem step_copy {s : Store R} {e e' : SState R} (h : Rel s e) {i : ℕ} {j : ℕ} (he : sstep e (.copy i j) = some e') :
    ∃ s', step s (.copy i j) = .ok s' ∧ Rel s' e' := by
  simp only [sstep, Option.bind_eq_some_iff] at he
  obtain ⟨p, hp, he⟩ := he
  obtain ⟨c, c1, -, c2, c3, -⟩ := get_rel h hp
  obtain ⟨s', h1, h2⟩ := put_rel h he c2 c3
  exact ⟨s', by simp only [step, c1, Res.bind_ok]; exact h1, h2⟩

theorem step_move {s : Store R} {e e' : SState R} (h : Rel s e) {i : ℕ} {j : ℕ} (he : sstep e (.move i j) = some e') :
    ∃ s', step s (.move i j) = .ok s' ∧ Rel s' e' := by
  simp only [sstep] at he
  split_ifs at he with hij
  simp only [Option.bind_eq_some_iff] at he
  obtain ⟨p, hp, he⟩ := he
  obtain ⟨c, c1, -, c2, c3, -⟩ := get_rel h hp
  have h' : Rel (Function.update s j (some [])) (Function.update e j none) := by
    intro k q d hk
    by_cases hkj : k = j
    · subst hkj
      rw [Function.update_self] at hk
      cases hk
    · rw [Function.update_of_ne hkj] at hk ⊢
      exact h k q d hk
  obtain ⟨s', h1, h2⟩ := put_rel h' he c2 c3
  exact ⟨s', by simp only [step, c1, Res.bind_ok, if_neg hij]; exact h1, h2⟩

theorem step_addA {s : Store R} {e e' : SState R} (h : Rel s e) {i : ℕ} {j : ℕ} (he : sstep e (.addA i j) = some e') :
    ∃ s', step s (.addA i j) = .ok s' ∧ Rel s' e' := by
  simp only [sstep, Option.bind_eq_some_iff] at he
  obtain ⟨p, hp, q, hq, he⟩ := he
  obtain ⟨c, c1, cn, c2, c3, c4⟩ := get_rel h hp
  obtain ⟨b, b1, bn, b2, b3, b4⟩ := get_rel h hq
  obtain ⟨r, r1, r2, r3⟩ : ∃ r, addObj (i = j) c b = .ok r ∧ r.length = max c.length b.length ∧
      polyOf r = polyOf c + polyOf b := by
    unfold addObj
    by_cases hij : i = j
    · subst hij
      rw [c1] at b1
      cases b1
      rw [if_pos rfl, max_self]
      exact addSelf_spec c
    · rw [if_neg hij]
      exact polyAddAssign_spec c b cn bn c4 b4
  obtain ⟨s', h1, h2⟩ := put_rel h he (c := r) (by rw [r3, c2, b2]) (by rw [r2]; omega)
  exact ⟨s', by simp only [step, c1, b1, Res.bind_ok, r1]; exact h1, h2⟩

theorem step_subA {s : Store R} {e e' : SState R} (h : Rel s e) {i : ℕ} {j : ℕ} (he : sstep e (.subA i j) = some e') :
    ∃ s', step s (.subA i j) = .ok s' ∧ Rel s' e' := by
  simp only [sstep, Option.bind_eq_some_iff] at he
  obtain ⟨p, hp, q, hq, he⟩ := he
  obtain ⟨c, c1, cn, c2, c3, c4⟩ := get_rel h hp
  obtain ⟨b, b1, bn, b2, b3, b4⟩ := get_rel h hq
  obtain ⟨r, r1, r2, r3⟩ : ∃ r, subObj (i = j) c b = .ok r ∧ r.length = max c.length b.length ∧
      polyOf r = polyOf c - polyOf b := by
    unfold subObj
    by_cases hij : i = j
    · subst hij
      rw [c1] at b1
      cases b1
      rw [if_pos rfl, max_self]
      exact subSelf_spec c cn c4
    · rw [if_neg hij]
      exact polySubAssign_spec c b cn bn c4 b4
  obtain ⟨s', h1, h2⟩ := put_rel h he (c := r) (by rw [r3, c2, b2]) (by rw [r2]; omega)
  exact ⟨s', by simp only [step, c1, b1, Res.bind_ok, r1]; exact h1, h2⟩

theorem step_mulA {s : Store R} {e e' : SState R} (h : Rel s e) {i : ℕ} {j : ℕ} (he : sstep e (.mulA i j) = some e') :
    ∃ s', step s (.mulA i j) = .ok s' ∧ Rel s' e' := by
  simp only [sstep, Option.bind_eq_some_iff] at he
  obtain ⟨p, hp, q, hq, he⟩ := he
  obtain ⟨c, c1, cn, c2, c3, c4⟩ := get_rel h hp
  obtain ⟨b, b1, bn, b2, b3, b4⟩ := get_rel h hq
  obtain ⟨r, r1, rn, r2, r3⟩ := polymul_ne c b cn bn
  have := List.length_pos_iff.mpr rn
  obtain ⟨s', h1, h2⟩ := put_rel h he (c := r) (by rw [r3, c2, b2]) (by omega)
  exact ⟨s', by simp only [step, c1, b1, Res.bind_ok, r1]; exact h1, h2⟩

theorem step_scaleA {s : Store R} {e e' : SState R} (h : Rel s e) {i : ℕ} {j : ℕ} {k : ℕ} (he : sstep e (.scaleA i j k) = some e') :
    ∃ s', step s (.scaleA i j k) = .ok s' ∧ Rel s' e' := by
  simp only [sstep, Option.bind_eq_some_iff] at he
  obtain ⟨p, hp, q, hq, he⟩ := he
  split_ifs at he with hk
  obtain ⟨c, c1, cn, c2, c3, c4⟩ := get_rel h hp
  obtain ⟨b, b1, bn, b2, b3, b4⟩ := get_rel h hq
  have hk' : k < b.length := by omega
  have hb : b[k] = q.1.coeff k := by rw [← b2, coeff_polyOf, getD_of_lt _ _ hk']
  obtain ⟨s', h1, h2⟩ := put_rel h he (c := polyScale c b[k]) (by rw [polyScale_poly, c2, hb]) (by simp [polyScale, c3])
  exact ⟨s', by simp only [step, c1, b1, Res.bind_ok, rd_nat b k hk']; exact h1, h2⟩

theorem step_add {s : Store R} {e e' : SState R} (h : Rel s e) {i : ℕ} {j : ℕ} {k : ℕ} (he : sstep e (.add i j k) = some e') :
    ∃ s', step s (.add i j k) = .ok s' ∧ Rel s' e' := by
  simp only [sstep, Option.bind_eq_some_iff] at he
  obtain ⟨p, hp, q, hq, he⟩ := he
  obtain ⟨c, c1, cn, c2, c3, c4⟩ := get_rel h hp
  obtain ⟨b, b1, bn, b2, b3, b4⟩ := get_rel h hq
  obtain ⟨r, r1, r2, r3⟩ := polyAddAssign_spec c b cn bn c4 b4
  obtain ⟨s', h1, h2⟩ := put_rel h he (c := r) (by rw [r3, c2, b2]) (by rw [r2]; omega)
  refine ⟨s', ?_, h2⟩
  rw [step, c1, Res.bind_ok, b1, Res.bind_ok, r1, Res.bind_ok]
  exact h1

theorem step_sub {s : Store R} {e e' : SState R} (h : Rel s e) {i : ℕ} {j : ℕ} {k : ℕ} (he : sstep e (.sub i j k) = some e') :
    ∃ s', step s (.sub i j k) = .ok s' ∧ Rel s' e' := by
  simp only [sstep, Option.bind_eq_some_iff] at he
  obtain ⟨p, hp, q, hq, he⟩ := he
  obtain ⟨c, c1, cn, c2, c3, c4⟩ := get_rel h hp
  obtain ⟨b, b1, bn, b2, b3, b4⟩ := get_rel h hq
  obtain ⟨r, r1, r2, r3⟩ := polySubAssign_spec c b cn bn c4 b4
  obtain ⟨s', h1, h2⟩ := put_rel h he (c := r) (by rw [r3, c2, b2]) (by rw [r2]; omega)
  refine ⟨s', ?_, h2⟩
  rw [step, c1, Res.bind_ok, b1, Res.bind_ok, r1, Res.bind_ok]
  exact h1

theorem step_mul {s : Store R} {e e' : SState R} (h : Rel s e) {i : ℕ} {j : ℕ} {k : ℕ} (he : sstep e (.mul i j k) = some e') :
    ∃ s', step s (.mul i j k) = .ok s' ∧ Rel s' e' := by
  simp only [sstep, Option.bind_eq_some_iff] at he
  obtain ⟨p, hp, q, hq, he⟩ := he
  obtain ⟨c, c1, cn, c2, c3, c4⟩ := get_rel h hp
  obtain ⟨b, b1, bn, b2, b3, b4⟩ := get_rel h hq
  obtain ⟨r, r1, rn, r2, r3⟩ := polymul_ne c b cn bn
  have := List.length_pos_iff.mpr rn
  obtain ⟨s', h1, h2⟩ := put_rel h he (c := r) (by rw [r3, c2, b2]) (by omega)
  exact ⟨s', by simp only [step, c1, b1, Res.bind_ok, r1]; exact h1, h2⟩

theorem step_scale {s : Store R} {e e' : SState R} (h : Rel s e) {i : ℕ} {a : R} {j : ℕ} (he : sstep e (.scale i a j) = some e') :
    ∃ s', step s (.scale i a j) = .ok s' ∧ Rel s' e' := by
  simp only [sstep, Option.bind_eq_some_iff] at he
  obtain ⟨p, hp, he⟩ := he
  obtain ⟨c, c1, cn, c2, c3, c4⟩ := get_rel h hp
  obtain ⟨s', h1, h2⟩ := put_rel h he (c := polyScale c a) (by rw [polyScale_poly, c2]) (by simp [polyScale, c3])
  exact ⟨s', by simp only [step, c1, Res.bind_ok]; exact h1, h2⟩

theorem step_mulx {s : Store R} {e e' : SState R} (h : Rel s e) {i : ℕ} (he : sstep e (.mulx i) = some e') :
    ∃ s', step s (.mulx i) = .ok s' ∧ Rel s' e' := by
  simp only [sstep, Option.bind_eq_some_iff] at he
  obtain ⟨p, hp, he⟩ := he
  obtain ⟨c, c1, cn, c2, c3, c4⟩ := get_rel h hp
  obtain ⟨s', h1, h2⟩ := put_rel h he (c := polymulxMove c) (by rw [polymulxMove_eq, polymulx_poly, c2])
    (by rw [polymulxMove_eq]; simp [polymulx, c3])
  exact ⟨s', by simp only [step, c1, Res.bind_ok]; exact h1, h2⟩

theorem step_rel {s : Store R} {e e' : SState R} (h : Rel s e) {o : Op R} (he : sstep e o = some e') : ∃ s', step s o = .ok s' ∧ Rel s' e' := by
  cases o with
  | new i l => exact step_new h he
  | zero i deg => exact step_zero h he
  | copy i j => exact step_copy h he
  | move i j => exact step_move h he
  | addA i j => exact step_addA h he
  | subA i j => exact step_subA h he
  | mulA i j => exact step_mulA h he
  | scaleA i j k => exact step_scaleA h he
  | add i j k => exact step_add h he
  | sub i j k => exact step_sub h he
  | mul i j k => exact step_mul h he
  | scale i a j => exact step_scale h he
  | mulx i => exact step_mulx h he

theorem run_rel {s : Store R} {e e' : SState R} (h : Rel s e) (os : List (Op R)) (he : srun e os = some e') : ∃ s', run s os = .ok s' ∧ Rel s' e' := by
  induction os generalizing s e with
  | nil => cases he; exact ⟨s, rfl, h⟩
  | cons o os ih =>
    simp only [srun, Option.bind_eq_some_iff] at he
    obtain ⟨e1, h1, h2⟩ := he
    obtain ⟨s1, g1, g2⟩ := step_rel h h1
    obtain ⟨s', k1, k2⟩ := ih g2 h2
    exact ⟨s', by simp only [run, g1, Res.bind_ok]; exact k1, k2⟩

/-- C141: every program on `Polynomial` objects, with operands that may be the same object, runs without undefined behaviour as long as no operand
has been moved from (and not assigned since), and then each object denotes the polynomial the statements mean: `degree()` is the formal degree,
an upper bound of the degree, and the call `P(x)` is the value of the polynomial. -/
theorem C141_programs (os : List (Op R)) (e : SState R) (he : srun (fun _ => none) os = some e) :
    ∃ s, run empty os = .ok s ∧ ∀ i p d, e i = some (p, d) →
      ∃ c, s i = some c ∧ (∀ k, c.getD k 0 = p.coeff k) ∧ polyDegree c = d ∧ p.natDegree ≤ d ∧ ∀ x, polyval x c = p.eval x := by
  obtain ⟨s, h1, h2⟩ := run_rel (s := empty) (e := fun _ => none) (fun i p d h => by cases h) os he
  refine ⟨s, h1, fun i p d hi => ?_⟩
  obtain ⟨c, g1, g2, g3, g4⟩ := h2 i p d hi
  have hc : c ≠ [] := by intro h0; subst h0; simp at g3
  refine ⟨c, g1, fun k => by rw [← g2, coeff_polyOf], by rw [polyDegree_eq c hc (by omega)]; omega, ?_, fun x => by rw [polyval_eq, g2]⟩
  rw [natDegree_le_iff_coeff_eq_zero]
  intro k hk
  rw [← g2, coeff_polyOf, getD_of_ge _ _ (by omega)]

/-- C141, `operator==` of two objects: the polynomials are equal and so are the formal degrees. -/
theorem C141_eq (os : List (Op R)) (e : SState R) (he : srun (fun _ => none) os = some e) (i j : ℕ) (p q : R[X] × ℕ) (hi : e i = some p)
    (hj : e j = some q) : ∃ s c c', run empty os = .ok s ∧ s i = some c ∧ s j = some c' ∧ (c = c' ↔ p = q) := by
  obtain ⟨s, h1, h2⟩ := run_rel (s := empty) (e := fun _ => none) (fun i p d h => by cases h) os he
  obtain ⟨c, g1, g2, g3, -⟩ := h2 i p.1 p.2 hi
  obtain ⟨c', k1, k2, k3, -⟩ := h2 j q.1 q.2 hj
  refine ⟨s, c, c', h1, g1, k1, ?_⟩
  constructor
  · intro h
    subst h
    exact Prod.ext (g2.symm.trans k2) (by omega)
  · intro h
    rw [h] at g2 g3
    exact list_eq_of_polyOf (by omega) (by rw [g2, k2])

/-- C141 (negation of "equal polynomials compare equal"): `P - P` is the zero polynomial and differs from `Polynomial{0}`. -/
theorem C141_eq_false :
    (run (R := ℤ) empty [.new 0 [1, 2], .sub 1 0 0, .new 2 [0]] >>= fun s => get s 1) = .ok [0, 0] ∧
    (run (R := ℤ) empty [.new 0 [1, 2], .sub 1 0 0, .new 2 [0]] >>= fun s => get s 2) = .ok [0] := by decide +kernel

omit [CommRing R] in
theorem get_some {s : Store R} {i : ℕ} {c : List R} (h : s i = some c) : get s i = .ok c := by unfold get; rw [h]

omit [CommRing R] in
theorem put_ok (s : Store R) (i : ℕ) {c : List R} (h : c.length < 2 ^ 64) : put s i c = .ok (Function.update s i (some c)) := by
  unfold put; rw [if_pos h]

theorem moved_prefix (a b : List R) (hal : a.length < 2 ^ 64) (hbl : b.length < 2 ^ 64) :
    ∃ s : Store R, (∀ os, run empty (.new 0 a :: .new 1 b :: .move 2 0 :: os) = run s os) ∧ s 0 = some [] ∧ s 1 = some b := by
  have g : get (Function.update (Function.update (empty : Store R) 0 (some a)) 1 (some b)) 0 = .ok a :=
    get_some (by rw [Function.update_of_ne Nat.zero_ne_one, Function.update_self])
  refine ⟨Function.update (Function.update (Function.update (Function.update empty 0 (some a)) 1 (some b)) 0 (some [])) 2 (some a), ?_, ?_, ?_⟩
  · intro os
    simp only [run, step, put_ok _ 0 hal, Res.bind_ok, put_ok _ 1 hbl, g, if_neg (show ¬ (2 = 0) from two_ne_zero), put_ok _ 2 hal]
  · rw [Function.update_of_ne two_ne_zero.symm, Function.update_self]
  · rw [Function.update_of_ne (by decide), Function.update_of_ne Nat.one_ne_zero, Function.update_self]

/-- C141 (negation for objects that have been moved from): adding to such an object, subtracting from it or using it as the right operand is
undefined behaviour, because its `degree()` is `2^64 - 1`; assigning to it makes it usable again. -/
theorem C141_moved (a b : List R) (hb : b ≠ []) (hal : a.length < 2 ^ 64) (hbl : b.length < 2 ^ 64) :
    run empty [.new 0 a, .new 1 b, .move 2 0, .addA 0 1] = .ub ∧ run empty [.new 0 a, .new 1 b, .move 2 0, .subA 0 1] = .ub ∧
    run empty [.new 0 a, .new 1 b, .move 2 0, .addA 1 0] = .ub ∧ run empty [.new 0 a, .new 1 b, .move 2 0, .add 3 1 0] = .ub ∧
    ∃ s, run empty [.new 0 a, .new 1 b, .move 2 0, .copy 0 1, .addA 0 1] = .ok s := by
  obtain ⟨u1, -, u3, u4⟩ := C55_class_empty_ub b hb hbl
  obtain ⟨r, r1, r2, r3⟩ := polyAddAssign_spec b b hb hb hbl hbl
  have hr : r.length < 2 ^ 64 := by rw [r2, max_self]; exact hbl
  obtain ⟨s, hs, s0, s1⟩ := moved_prefix a b hal hbl
  refine ⟨?_, ?_, ?_, ?_, ?_⟩
  · rw [hs, run, step, get_some s0, Res.bind_ok, get_some s1, Res.bind_ok, addObj, if_neg Nat.zero_ne_one, u3]
    rfl
  · rw [hs, run, step, get_some s0, Res.bind_ok, get_some s1, Res.bind_ok, subObj, if_neg Nat.zero_ne_one, u4]
    rfl
  · rw [hs, run, step, get_some s1, Res.bind_ok, get_some s0, Res.bind_ok, addObj, if_neg Nat.one_ne_zero, u1]
    rfl
  · rw [hs, run, step, get_some s1, Res.bind_ok, get_some s0, Res.bind_ok, u1]
    rfl
  · have g0 : get (Function.update s 0 (some b)) 0 = .ok b := get_some (by rw [Function.update_self])
    have g1 : get (Function.update s 0 (some b)) 1 = .ok b := get_some (by rw [Function.update_of_ne Nat.one_ne_zero]; exact s1)
    refine ⟨Function.update (Function.update s 0 (some b)) 0 (some r), ?_⟩
    rw [hs, run, step, get_some s1, Res.bind_ok, put_ok s 0 hbl, Res.bind_ok, run, step, g0, Res.bind_ok, g1, Res.bind_ok, addObj,
      if_neg Nat.zero_ne_one, r1, Res.bind_ok, put_ok _ 0 hr, Res.bind_ok, run]

-- the hypotheses are met: programs that have a meaning, with operands that are the same object
example : (run (R := ℤ) empty [.new 0 [1, 2], .addA 0 0, .mulx 0] >>= fun s => get s 0) = .ok [0, 2, 4] := by decide +kernel

example : (srun (R := ℤ) (fun _ => none) [.new 0 [1, 2], .new 1 [3], .addA 0 0, .mulA 0 0, .mulx 0, .sub 1 0 1, .scaleA 0 0 1]).isSome = true := by
  simp [srun, sstep, sput, Function.update]

end PolyObj
end SciCpp
