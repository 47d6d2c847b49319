import Verif.Model.Fft
import Mathlib.Data.Nat.Basic
import Mathlib.Tactic.Ring
import Mathlib.Tactic.Linarith
/-
  Invariant of the Hamming number generator of scicpp/signal/fft.hpp:110-159.
-/
namespace SciCpp

/-- Products of elements of `ps`. -/
inductive Smooth (ps : List ℕ) : ℕ → Prop where
  | one : Smooth ps 1
  | mul {n p : ℕ} : Smooth ps n → p ∈ ps → Smooth ps (n * p)

theorem Smooth.pos {ps : List ℕ} (hps : ∀ p ∈ ps, 2 ≤ p) {n : ℕ} (h : Smooth ps n) : 1 ≤ n := by
  induction h with
  | one => exact le_refl _
  | mul _ hp ih => exact Nat.mul_pos ih (by have := hps _ hp; omega)

/-- Invariant of one `(prime, position, value)` entry. -/
def HEntry (x : List ℕ) (back : ℕ) (t : ℕ × ℕ × ℕ) : Prop :=
  (∃ y, x[t.2.1]? = some y ∧ t.2.2 = y * t.1) ∧
  ∀ j z, j < t.2.1 → x[j]? = some z → z * t.1 ≤ back

/-- Invariant of the generated numbers. -/
structure HSeq (ps : List ℕ) (x : List ℕ) (back : ℕ) : Prop where
  last : x[x.length - 1]? = some back
  sorted : x.Pairwise (· < ·)
  smooth : ∀ y ∈ x, Smooth ps y
  complete : ∀ k, Smooth ps k → k ≤ back → k ∈ x
  le_back : ∀ y ∈ x, y ≤ back

theorem HSeq.length_pos {ps x : List ℕ} {back : ℕ} (h : HSeq ps x back) : 0 < x.length := by
  have := h.last
  by_contra hc
  have : x = [] := by
    cases x with
    | nil => rfl
    | cons _ _ => simp at hc
  simp [this] at *

theorem HSeq.mono {ps x : List ℕ} {back : ℕ} (h : HSeq ps x back) {i j a b : ℕ} (hij : i < j)
    (ha : x[i]? = some a) (hb : x[j]? = some b) : a < b := by
  obtain ⟨h1, rfl⟩ := List.getElem?_eq_some_iff.mp ha
  obtain ⟨h2, rfl⟩ := List.getElem?_eq_some_iff.mp hb
  exact List.pairwise_iff_getElem.mp h.sorted i j h1 h2 hij

/-- Consecutive numbers grow by a factor of at most two. -/
theorem HSeq.double {ps x : List ℕ} {back : ℕ} (h : HSeq ps x back) (hps : ∀ p ∈ ps, 2 ≤ p)
    (h2 : 2 ∈ ps) {j a b : ℕ} (ha : x[j]? = some a) (hb : x[j + 1]? = some b) : b ≤ a * 2 := by
  have hsa := h.smooth a (List.mem_of_getElem? ha)
  have ha1 := hsa.pos hps
  by_cases hle : a * 2 ≤ back
  · obtain ⟨i, hi⟩ := List.mem_iff_getElem?.mp (h.complete _ (hsa.mul h2) hle)
    have hji : j < i := by
      by_contra hc
      rcases lt_or_eq_of_le (Nat.le_of_not_lt hc) with h3 | h3
      · have := h.mono h3 hi ha; omega
      · subst h3; rw [ha] at hi; injection hi with hi; omega
    rcases Nat.lt_or_ge (j + 1) i with h3 | h3
    · exact le_of_lt (h.mono h3 hb hi)
    · have : i = j + 1 := by omega
      subst this; rw [hb] at hi; injection hi with hi; omega
  · have := h.le_back b (List.mem_of_getElem? hb); omega

theorem advance_ok {ps x : List ℕ} {back lim : ℕ} (h : HSeq ps x back) (hps : ∀ p ∈ ps, 2 ≤ p)
    (h2 : 2 ∈ ps) (hlim : back * 2 ≤ lim) :
    ∀ (fuel : ℕ) (t : ℕ × ℕ × ℕ), t.1 ∈ ps → HEntry x back t → x.length + 1 ≤ fuel + t.2.1 + 1 →
      t.2.1 < x.length →
      ∃ t', Hamming.advance lim x back (fuel + 1) t = .ok t' ∧ t'.1 = t.1 ∧ HEntry x back t' ∧
        back < t'.2.2 ∧ t'.2.1 < x.length := by
  intro fuel
  induction fuel with
  | zero => intro t _ _ hf hl; omega
  | succ fuel ih =>
    rintro ⟨p, hp, hv⟩ hmem ⟨⟨y, hy, hyv⟩, hlow⟩ hf hl
    simp only at hmem hy hyv hlow hf hl
    have hb1 : 1 ≤ back := (h.smooth _ (List.mem_of_getElem? h.last)).pos hps
    rw [Hamming.advance]
    by_cases hle : hv ≤ back
    · rw [if_pos hle]
      have hlt : hp + 1 < x.length := by
        by_contra hc
        have he : hp = x.length - 1 := by omega
        rw [he, h.last] at hy
        injection hy with hy
        have := hps p hmem
        have : back * 2 ≤ back * p := Nat.mul_le_mul_left _ this
        rw [hyv, ← hy] at hle
        omega
      rw [rd_nat x _ hlt]
      simp only [Res.bind_ok]
      have hget : x[hp + 1]? = some x[hp + 1] := List.getElem?_eq_getElem hlt
      have hd := h.double hps h2 hy hget
      have hbound : x[hp + 1] * p ≤ lim := by
        calc x[hp + 1] * p ≤ y * 2 * p := Nat.mul_le_mul_right _ hd
          _ = y * p * 2 := by ring
          _ ≤ back * 2 := Nat.mul_le_mul_right _ (by omega)
          _ ≤ lim := hlim
      rw [show decide (x[hp + 1] * p ≤ lim) = true by simpa using hbound]
      simp only [require_true, Res.bind_ok]
      refine ih (p, hp + 1, x[hp + 1] * p) hmem ⟨⟨_, hget, rfl⟩, ?_⟩ (by simp only; omega) hlt
      intro j z hj hz
      simp only at hj ⊢
      rcases Nat.lt_or_ge j hp with h3 | h3
      · exact hlow j z h3 hz
      · have : j = hp := by omega
        subst this; rw [hy] at hz; injection hz with hz; subst hz; omega
    · rw [if_neg hle]
      exact ⟨_, rfl, rfl, ⟨⟨y, hy, hyv⟩, hlow⟩, by simp only; omega, hl⟩

theorem advanceAll_ok {ps x : List ℕ} {back lim : ℕ} (h : HSeq ps x back) (hps : ∀ p ∈ ps, 2 ≤ p)
    (h2 : 2 ∈ ps) (hlim : back * 2 ≤ lim) (ts : List (ℕ × ℕ × ℕ))
    (hts : ∀ t ∈ ts, t.1 ∈ ps ∧ HEntry x back t ∧ t.2.1 < x.length) :
    ∃ ts', Hamming.advanceAll lim x back ts = .ok ts' ∧ ts'.map (·.1) = ts.map (·.1) ∧
      ∀ t ∈ ts', HEntry x back t ∧ back < t.2.2 ∧ t.2.1 < x.length := by
  induction ts with
  | nil => exact ⟨[], rfl, rfl, by simp⟩
  | cons t ts ih =>
    obtain ⟨a1, a2, a3⟩ := hts t (by simp)
    obtain ⟨t', e1, e2, e3, e4, e5⟩ := advance_ok h hps h2 hlim x.length t a1 a2 (by omega) a3
    obtain ⟨ts', f1, f2, f3⟩ := ih (fun t ht => hts t (by simp [ht]))
    refine ⟨t' :: ts', ?_, by simp [e2, f2], ?_⟩
    · rw [Hamming.advanceAll, e1]
      simp only [Res.bind_ok]
      rw [f1]; rfl
    · intro t ht
      rcases List.mem_cons.mp ht with rfl | ht
      · exact ⟨e3, e4, e5⟩
      · exact f3 t ht

theorem foldl_min_le (ts : List (ℕ × ℕ × ℕ)) (m : ℕ) :
    ts.foldl (fun m t => if t.2.2 < m then t.2.2 else m) m ≤ m ∧
    (∀ t ∈ ts, ts.foldl (fun m t => if t.2.2 < m then t.2.2 else m) m ≤ t.2.2) ∧
    (ts.foldl (fun m t => if t.2.2 < m then t.2.2 else m) m = m ∨
      ∃ t ∈ ts, ts.foldl (fun m t => if t.2.2 < m then t.2.2 else m) m = t.2.2) := by
  induction ts generalizing m with
  | nil => simp
  | cons t ts ih =>
    simp only [List.foldl_cons]
    obtain ⟨i1, i2, i3⟩ := ih (if t.2.2 < m then t.2.2 else m)
    refine ⟨?_, ?_, ?_⟩
    · split_ifs at i1 ⊢ <;> omega
    · intro t' ht'
      rcases List.mem_cons.mp ht' with rfl | ht'
      · split_ifs at i1 ⊢ <;> omega
      · exact i2 t' ht'
    · rcases i3 with i3 | ⟨t', h1, h2⟩
      · rw [i3]
        split_ifs with hc
        · exact .inr ⟨t, by simp, rfl⟩
        · exact .inl rfl
      · exact .inr ⟨t', by simp [h1], h2⟩

/-- Invariant of the generator. -/
structure HInv (ps : List ℕ) (s : Hamming) (back : ℕ) : Prop where
  seq : HSeq ps s.x back
  primes : s.h.map (·.1) = ps
  entries : ∀ t ∈ s.h, HEntry s.x back t ∧ t.2.1 < s.x.length

theorem HInv.deref {ps : List ℕ} {s : Hamming} {back : ℕ} (h : HInv ps s back) :
    s.deref = .ok back := by
  have hl := h.seq.length_pos
  unfold Hamming.deref
  rw [show (s.x.length : ℤ) - 1 = ((s.x.length - 1 : ℕ) : ℤ) by omega, rd_nat _ _ (by omega)]
  have := h.seq.last
  rw [List.getElem?_eq_getElem (by omega)] at this
  injection this with this
  rw [this]

theorem HInv.init {ps : List ℕ} (hps : ∀ p ∈ ps, 2 ≤ p) : HInv ps (Hamming.init ps) 1 where
  seq := {
    last := by simp [Hamming.init]
    sorted := by simp [Hamming.init]
    smooth := by simpa [Hamming.init] using Smooth.one
    complete := by
      intro k hk hle
      have := hk.pos hps
      simp [Hamming.init]; omega
    le_back := by simp [Hamming.init] }
  primes := by simp [Hamming.init, Function.comp_def]
  entries := by
    intro t ht
    simp only [Hamming.init, List.mem_map] at ht
    obtain ⟨p, hp, rfl⟩ := ht
    refine ⟨⟨⟨1, by simp [Hamming.init], by simp⟩, ?_⟩, by simp [Hamming.init]⟩
    intro j z hj; simp at hj

/-- One `operator++` appends the least smooth number above the current one. -/
theorem HInv.next {ps : List ℕ} {s : Hamming} {back lim : ℕ} (h : HInv ps s back)
    (hps : ∀ p ∈ ps, 2 ≤ p) (h2 : 2 ∈ ps) (hlim : back * 2 ≤ lim) :
    ∃ s' m, s.next lim = .ok s' ∧ HInv ps s' m ∧ back < m ∧ m ≤ back * 2 ∧
      (∀ k, Smooth ps k → k < m → k ≤ back) := by
  obtain ⟨ts', e1, e2, e3⟩ := advanceAll_ok h.seq hps h2 hlim s.h (fun t ht =>
    ⟨by rw [← h.primes]; exact List.mem_map_of_mem ht, (h.entries t ht).1, (h.entries t ht).2⟩)
  unfold Hamming.next
  rw [h.deref]
  simp only [Res.bind_ok]
  rw [e1]
  simp only [Res.bind_ok]
  rw [h.primes] at e2
  cases hts : ts' with
  | nil => rw [hts] at e2; rw [← e2] at h2; simp at h2
  | cons t0 rest =>
    simp only
    rw [← hts]
    set m := ts'.foldl (fun m t => if t.2.2 < m then t.2.2 else m) t0.2.2 with hm
    obtain ⟨f1, f2, f3⟩ := foldl_min_le ts' t0.2.2
    rw [← hm] at f1 f2 f3
    have ht0 : t0 ∈ ts' := by rw [hts]; simp
    -- m is one of the values
    have hmv : ∃ t ∈ ts', m = t.2.2 := by
      rcases f3 with f3 | f3
      · exact ⟨t0, ht0, f3⟩
      · exact f3
    obtain ⟨t, ht, hmt⟩ := hmv
    obtain ⟨⟨⟨y, hy1, hy2⟩, hylow⟩, hgt, hlt⟩ := e3 t ht
    have hback : back < m := by omega
    have htp : t.1 ∈ ps := by rw [← e2]; exact List.mem_map_of_mem ht
    have hmS : Smooth ps m := by
      rw [hmt, hy2]
      exact (h.seq.smooth y (List.mem_of_getElem? hy1)).mul htp
    have hleast : ∀ k, Smooth ps k → back < k → m ≤ k := by
      intro k hk
      induction hk with
      | one =>
        intro hb
        have := (h.seq.smooth _ (List.mem_of_getElem? h.seq.last)).pos hps
        omega
      | @mul k' p hk' hp ih =>
        intro hb
        have hp2 := hps p hp
        have hk1 := hk'.pos hps
        rcases Nat.lt_or_ge back k' with hc | hc
        · have := ih hc
          have : k' * 1 ≤ k' * p := Nat.mul_le_mul_left _ (by omega)
          omega
        · obtain ⟨j, hj⟩ := List.mem_iff_getElem?.mp (h.seq.complete k' hk' hc)
          obtain ⟨u, hu, hup⟩ : ∃ u ∈ ts', u.1 = p := by
            rw [← e2] at hp
            obtain ⟨u, hu, hup⟩ := List.mem_map.mp hp
            exact ⟨u, hu, hup⟩
          obtain ⟨⟨⟨z, hz1, hz2⟩, hzlow⟩, _, _⟩ := e3 u hu
          have hju : u.2.1 ≤ j := by
            by_contra hcc
            have := hzlow j k' (by omega) hj
            rw [hup] at this
            omega
          have hzk : z ≤ k' := by
            rcases Nat.lt_or_ge u.2.1 j with h5 | h5
            · exact le_of_lt (h.seq.mono h5 hz1 hj)
            · have : j = u.2.1 := by omega
              rw [this, hz1] at hj; injection hj with hj; omega
          have := f2 u hu
          have : z * p ≤ k' * p := Nat.mul_le_mul_right _ hzk
          rw [hz2, hup] at *
          omega
    have hb1 : 1 ≤ back := (h.seq.smooth _ (List.mem_of_getElem? h.seq.last)).pos hps
    have hmle : m ≤ back * 2 :=
      hleast _ ((h.seq.smooth _ (List.mem_of_getElem? h.seq.last)).mul h2) (by omega)
    refine ⟨⟨s.x ++ [m], ts'⟩, m, rfl, ⟨⟨?_, ?_, ?_, ?_, ?_⟩, e2, ?_⟩, hback, hmle, ?_⟩
    · simp
    · rw [List.pairwise_append]
      refine ⟨h.seq.sorted, by simp, ?_⟩
      intro a ha b hb
      simp at hb
      have := h.seq.le_back a ha
      omega
    · intro a ha
      rcases List.mem_append.mp ha with ha | ha
      · exact h.seq.smooth a ha
      · simp at ha; rw [ha]; exact hmS
    · intro k hk hkm
      rw [List.mem_append]
      rcases Nat.lt_or_ge back k with hc | hc
      · have := hleast k hk hc
        right; simp; omega
      · exact .inl (h.seq.complete k hk hc)
    · intro a ha
      rcases List.mem_append.mp ha with ha | ha
      · have := h.seq.le_back a ha; omega
      · simp at ha; omega
    · intro u hu
      obtain ⟨⟨⟨z, hz1, hz2⟩, hzlow⟩, _, hl⟩ := e3 u hu
      refine ⟨⟨⟨z, ?_, hz2⟩, ?_⟩, by simp; omega⟩
      · simp only
        rw [List.getElem?_append_left hl]; exact hz1
      · intro j w hj hw
        rw [List.getElem?_append_left (by omega)] at hw
        have := hzlow j w hj hw
        omega
    · intro k hk hkm
      by_contra hc
      have := hleast k hk (by omega)
      omega

theorem nextUglyLoop_ok {ps : List ℕ} (hps : ∀ p ∈ ps, 2 ≤ p) (h2 : 2 ∈ ps) (lim : ℕ) (num : ℤ)
    (hlim : 2 * num ≤ lim) :
    ∀ (fuel : ℕ) (s : Hamming) (back : ℕ), HInv ps s back → num ≤ fuel + back →
      (∀ k, Smooth ps k → k < back → (k : ℤ) < num) →
      ∃ m, nextUglyLoop lim (fuel + 1) s num = .ok (some m) ∧ Smooth ps m ∧ num ≤ m ∧
        ∀ k, Smooth ps k → num ≤ k → m ≤ k := by
  intro fuel
  induction fuel with
  | zero =>
    intro s back h hf hlow
    refine ⟨back, ?_, h.seq.smooth _ (List.mem_of_getElem? h.seq.last), by omega, ?_⟩
    · rw [nextUglyLoop, h.deref]
      simp only [Res.bind_ok]
      rw [if_pos (by omega)]; rfl
    · intro k hk hle
      by_contra hc
      have := hlow k hk (by omega)
      omega
  | succ fuel ih =>
    intro s back h hf hlow
    rw [nextUglyLoop, h.deref]
    simp only [Res.bind_ok]
    by_cases hc : num ≤ (back : ℤ)
    · rw [if_pos hc]
      refine ⟨back, rfl, h.seq.smooth _ (List.mem_of_getElem? h.seq.last), hc, ?_⟩
      intro k hk hle
      by_contra hc
      have := hlow k hk (by omega)
      omega
    · rw [if_neg hc]
      obtain ⟨s', m, e1, e2, e3, e4, e5⟩ := h.next hps h2 (lim := lim) (by omega)
      rw [e1]
      simp only [Res.bind_ok]
      refine ih s' m e2 (by omega) ?_
      intro k hk hkm
      have := e5 k hk hkm
      omega

/-- Membership in closed form. -/
theorem smooth_iff (n : ℕ) : Smooth [2, 3, 5] n ↔ ∃ a b c : ℕ, n = 2 ^ a * 3 ^ b * 5 ^ c := by
  constructor
  · intro h
    induction h with
    | one => exact ⟨0, 0, 0, rfl⟩
    | mul _ hp ih =>
      obtain ⟨a, b, c, rfl⟩ := ih
      simp only [List.mem_cons, List.not_mem_nil, or_false] at hp
      rcases hp with rfl | rfl | rfl
      · exact ⟨a + 1, b, c, by ring⟩
      · exact ⟨a, b + 1, c, by ring⟩
      · exact ⟨a, b, c + 1, by ring⟩
  · rintro ⟨a, b, c, rfl⟩
    have hpow : ∀ (p : ℕ), p ∈ [2, 3, 5] → ∀ k n, Smooth [2, 3, 5] n →
        Smooth [2, 3, 5] (n * p ^ k) := by
      intro p hp k
      induction k with
      | zero => intro n hn; simpa using hn
      | succ k ih => intro n hn; rw [pow_succ, ← mul_assoc]; exact (ih n hn).mul hp
    exact hpow 5 (by simp) c _ (hpow 3 (by simp) b _ (by simpa using hpow 2 (by simp) a 1 .one))

end SciCpp
