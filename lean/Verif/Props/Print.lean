import Verif.Model.Print
import Verif.Proofs.Io
import Mathlib.Data.Rat.Defs
import Mathlib.Algebra.Order.Ring.Rat
import Mathlib.Tactic.Linarith
import Mathlib.Tactic.NormNum
/-
  C68 — printing of arrays (scicpp/core/print.hpp).
-/
namespace SciCpp

variable {α : Type}

/-- Elements joined by a separator, a line break and a space before those with a mark.  The separator
comes before every element but the first. -/
def joinBreaks (sep : List Char) : List (Bool × List Char) → List Char
  | [] => []
  | (b, s) :: rest =>
    (if b then ['\n', ' '] else []) ++ s ++
      (if rest = [] then [] else sep ++ joinBreaks sep rest)

theorem printElems_join (o : PrintOpts) (h0 : '\x00' ∉ o.separator) (strs : List (List Char))
    (sep : List Char) (n : ℕ) (pos : ℤ) :
    ∃ bs : List Bool, bs.length = strs.length ∧
      (printElems o strs sep n pos).1 =
        (if strs = [] then [] else sep) ++ joinBreaks o.separator (bs.zip strs) := by
  induction strs generalizing sep n pos with
  | nil => exact ⟨[], rfl, rfl⟩
  | cons s ss ih =>
    obtain ⟨bs, hl, he⟩ := ih (cstr o.separator) o.separator.length
      (if o.linewidth ≤ pos + ((n + s.length : ℕ) : ℤ) then 1 + (s.length : ℤ)
        else pos + ((n + s.length : ℕ) : ℤ))
    refine ⟨decide (o.linewidth ≤ pos + ((n + s.length : ℕ) : ℤ)) :: bs, by simp [hl], ?_⟩
    simp only [printElems, decide_eq_true_eq]
    rw [he, cstr_eq h0]
    have hz : bs.zip ss = [] ↔ ss = [] := by
      cases ss with
      | nil => simp
      | cons => cases bs with
        | nil => simp at hl
        | cons => simp
    simp only [List.zip_cons_cons, joinBreaks, hz]
    generalize pos + ((n + s.length : ℕ) : ℤ) = q
    by_cases hb : o.linewidth ≤ q <;> by_cases hs : ss = []
    · subst hs; simp [hb, joinBreaks]
    · simp [hb, hs]
    · subst hs; simp [hb, joinBreaks]
    · simp [hb, hs]

/-- C68, up to the threshold: the output is the text of ALL elements, in order, between brackets,
separated by the separator, some of them preceded by a line break and one space.  Missing: the text of an element identifies it; for
integers it does not (`C68_integers_lose_zeros`). -/
theorem C68_full_partial (o : PrintOpts) (h0 : '\x00' ∉ o.separator) (suppress : Bool) (sci : List α → Bool)
    (raw : Bool → α → List Char) {A : List α} (hne : A ≠ []) (hA : A.length ≤ o.threshold) :
    ∃ (fixed : Bool) (bs : List Bool), (fixed = true ↔ suppress = true ∨ sci A = false) ∧
      bs.length = A.length ∧
      printArray o suppress sci raw A =
        .ok ('[' :: joinBreaks o.separator (bs.zip (A.map fun a => fmterStr fixed (raw fixed a))) ++
          "]\n".toList) := by
  obtain ⟨bs, hl, he⟩ := printElems_join o h0
    (A.map fun a => fmterStr (suppress || !sci A) (raw (suppress || !sci A) a)) [] 0 1
  refine ⟨suppress || !sci A, bs, by simp, by simpa using hl, ?_⟩
  unfold printArray
  rw [if_neg hne, if_pos hA]
  simp only [he]
  simp

/-- C68, above the threshold: the output shows exactly the first and the last `edgeitems` elements, in
order, around an ellipsis; it is undefined behaviour exactly when these would overlap or leave nothing
out. -/
theorem C68_summary (o : PrintOpts) (h0 : '\x00' ∉ o.separator) (suppress : Bool) (sci : List α → Bool)
    (raw : Bool → α → List Char) {A : List α} (hA : o.threshold < A.length) :
    (2 * o.edgeitems < A.length →
      ∃ (fixed : Bool) (bs bs' : List Bool), bs.length = o.edgeitems ∧ bs'.length = o.edgeitems ∧
        printArray o suppress sci raw A =
          .ok ('[' :: joinBreaks o.separator (bs.zip ((A.take o.edgeitems).map fun a => fmterStr fixed (raw fixed a))) ++
            o.separator ++ "...".toList ++ o.separator ++
            joinBreaks o.separator (bs'.zip ((A.drop (A.length - o.edgeitems)).map fun a => fmterStr fixed (raw fixed a))) ++
            "]\n".toList)) ∧
    (A.length ≤ 2 * o.edgeitems → printArray o suppress sci raw A = .ub) := by
  have hne : A ≠ [] := by rintro rfl; simp at hA
  constructor
  · intro he
    obtain ⟨fixed, hfixed⟩ : ∃ fixed, fixed = (suppress || !(sci (A.take o.edgeitems) ||
      sci (A.drop (A.length - o.edgeitems)))) := ⟨_, rfl⟩
    obtain ⟨bs, hl, h1⟩ := printElems_join o h0
      ((A.take o.edgeitems).map fun a => fmterStr fixed (raw fixed a)) [] 0 1
    obtain ⟨bs', hl', h1'⟩ := printElems_join o h0
      ((A.drop (A.length - o.edgeitems)).map fun a => fmterStr fixed (raw fixed a)) [] 0
      ((printElems o ((A.take o.edgeitems).map fun a => fmterStr fixed (raw fixed a)) [] 0 1).2 +
        (3 + 2 * (o.separator.length : ℤ)))
    refine ⟨fixed, bs, bs', ?_, ?_, ?_⟩
    · simp at hl; omega
    · simp at hl'; omega
    · unfold printArray
      rw [if_neg hne, if_neg (by omega), if_pos he]
      simp only [← hfixed]
      rw [h1, h1']
      simp
  · intro he
    unfold printArray
    rw [if_neg hne, if_neg (by omega), if_neg (by omega)]

/-- Satisfiable: both modes, and the undefined case. -/
example : printArray {} false (fun _ => true) (fun _ (s : List Char) => s) ["a".toList, "b".toList] =
      .ok "[a b]\n".toList ∧
    printArray { threshold := 4, edgeitems := 2 } false (fun _ => true) (fun _ (s : List Char) => s)
      ["a".toList, "b".toList, "c".toList, "d".toList, "e".toList] = .ok "[a b ... d e]\n".toList ∧
    printArray { threshold := 4, edgeitems := 3 } false (fun _ => true) (fun _ (s : List Char) => s)
      ["a".toList, "b".toList, "c".toList, "d".toList, "e".toList] = .ub := by
  refine ⟨by decide, by decide, by decide⟩

/-! ### Line width -/

/-- Lengths of the lines of a text that starts in column `col`. -/
def lineLens : List Char → ℕ → List ℕ
  | [], col => [col]
  | ch :: s, col => if ch = '\n' then col :: lineLens s 0 else lineLens s (col + 1)

theorem lineLens_append_noNl {a : List Char} (h : '\n' ∉ a) (b : List Char) (col : ℕ) :
    lineLens (a ++ b) col = lineLens b (col + a.length) := by
  induction a generalizing col with
  | nil => simp
  | cons ch a ih =>
    rw [List.mem_cons, not_or] at h
    rw [List.cons_append]
    simp only [lineLens, if_neg (fun e : ch = '\n' => h.1 e.symm)]
    rw [ih h.2, List.length_cons]
    congr 1
    omega

theorem printElems_lines (o : PrintOpts) (h0 : '\x00' ∉ o.separator) (hs : '\n' ∉ o.separator)
    (strs : List (List Char)) (hn : ∀ s ∈ strs, '\n' ∉ s)
    (hlen : ∀ s ∈ strs, (s.length : ℤ) + 1 < o.linewidth) (tail : List Char) (bound : ℕ)
    (hb : o.linewidth - 1 + (o.separator.length : ℤ) ≤ bound)
    (ht : ∀ c : ℕ, (c : ℤ) < o.linewidth → ∀ n ∈ lineLens tail c, n ≤ bound)
    (sep : List Char) (hsep : '\n' ∉ sep) (hsl : (sep.length : ℤ) ≤ o.separator.length) (col : ℕ)
    (hc : (col : ℤ) < o.linewidth) :
    ∀ n ∈ lineLens ((printElems o strs sep sep.length col).1 ++ tail) col, n ≤ bound := by
  induction strs generalizing sep col with
  | nil => simpa [printElems] using ht col hc
  | cons s ss ih =>
    have hns := hn s (by simp)
    have hls := hlen s (by simp)
    simp only [printElems, decide_eq_true_eq]
    have ih' := ih (fun t ht => hn t (by simp [ht])) (fun t ht => hlen t (by simp [ht])) o.separator hs
      (le_refl _)
    rw [cstr_eq h0]
    by_cases hbk : o.linewidth ≤ (col : ℤ) + ((sep.length + s.length : ℕ) : ℤ)
    · simp only [hbk, if_true, List.append_assoc]
      rw [lineLens_append_noNl hsep]
      show ∀ n ∈ (col + sep.length) :: lineLens (([' '] : List Char) ++ (s ++ _)) 0, n ≤ bound
      rw [lineLens_append_noNl (by decide), lineLens_append_noNl hns]
      intro n hn'
      rcases List.mem_cons.1 hn' with rfl | hn'
      · zify; omega
      · have := ih' (0 + 1 + s.length) (by push_cast; omega)
        push_cast at this hn' ⊢
        simp only [Nat.zero_add] at this hn'
        exact this n hn'
    · simp only [hbk, if_false, List.append_assoc]
      rw [lineLens_append_noNl hsep, lineLens_append_noNl hns]
      have := ih' (col + sep.length + s.length) (by push_cast at *; omega)
      have e : ((col + sep.length + s.length : ℕ) : ℤ) = (col : ℤ) + ((sep.length + s.length : ℕ) : ℤ) := by
        push_cast; omega
      rw [e] at this
      exact this

/-- C68, line breaking: if every element's text with its leading space fits on a line (and neither the
elements nor the separator contain a newline), every line of the output of an array up to the threshold
is at most `linewidth - 1` characters plus the trailing separator or bracket. -/
theorem C68_line_width (o : PrintOpts) (h0 : '\x00' ∉ o.separator) (hs : '\n' ∉ o.separator)
    (hs1 : 1 ≤ o.separator.length) (hw : 2 ≤ o.linewidth) (suppress : Bool) (sci : List α → Bool)
    (raw : Bool → α → List Char) {A : List α} (hne : A ≠ []) (hA : A.length ≤ o.threshold)
    (hn : ∀ fixed, ∀ a ∈ A, '\n' ∉ fmterStr fixed (raw fixed a))
    (hlen : ∀ fixed, ∀ a ∈ A, ((fmterStr fixed (raw fixed a)).length : ℤ) + 1 < o.linewidth) :
    ∃ out, printArray o suppress sci raw A = .ok out ∧
      ∀ n ∈ lineLens out 0, (n : ℤ) ≤ o.linewidth - 1 + o.separator.length := by
  unfold printArray
  rw [if_neg hne, if_pos hA]
  refine ⟨_, rfl, ?_⟩
  have key := printElems_lines o h0 hs
    (A.map fun a => fmterStr (suppress || !sci A) (raw (suppress || !sci A) a))
    (by
      intro s hs
      obtain ⟨a, ha, rfl⟩ := List.mem_map.1 hs
      exact hn _ a ha)
    (by
      intro s hs
      obtain ⟨a, ha, rfl⟩ := List.mem_map.1 hs
      exact hlen _ a ha) "]\n".toList (o.linewidth - 1 + (o.separator.length : ℤ)).toNat (by omega)
    (by
      intro c hc n hn
      have : lineLens "]\n".toList c = [c + 1, 0] := by simp [lineLens]
      rw [this] at hn
      simp only [List.mem_cons, List.not_mem_nil, or_false] at hn
      omega) [] (by simp) (by simp) 1 (by push_cast; omega)
  intro n hn'
  have hl : lineLens ('[' :: (printElems o (A.map fun a => fmterStr (suppress || !sci A)
      (raw (suppress || !sci A) a)) [] 0 1).1 ++ "]\n".toList) 0 =
      lineLens ((printElems o (A.map fun a => fmterStr (suppress || !sci A)
      (raw (suppress || !sci A) a)) [] 0 1).1 ++ "]\n".toList) 1 := by
    rw [List.cons_append]
    simp [lineLens]
  rw [hl] at hn'
  have := key n hn'
  omega

/-- Satisfiable: three elements on lines of at most 8 characters. -/
example : printArray { linewidth := 8 } false (fun _ => true) (fun _ (s : List Char) => s)
      ["aaa".toList, "bbb".toList, "ccc".toList] = .ok "[aaa \n bbb \n ccc]\n".toList := by decide

/-! ### Notation and the text of the elements -/

/-- C68: fixed point notation is chosen exactly when no non-zero element is below 1e-4 in absolute value
and no two non-zero elements differ in absolute value by a factor above 1000. -/
theorem C68_notation {K : Type} [Field K] [LinearOrder K] [IsStrictOrderedRing K] (A : List K) :
    useScientific A = true ↔
      (∃ x ∈ A, x ≠ 0 ∧ |x| < 1 / 10000) ∨ (∃ x ∈ A, ∃ y ∈ A, y ≠ 0 ∧ 1000 * |y| < |x|) := by
  have hf : ∀ v : K, v ∈ (A.map fun x => |x|).filter (fun x => x ≠ 0) ↔ ∃ x ∈ A, x ≠ 0 ∧ |x| = v := by
    intro v
    simp only [List.mem_filter, List.mem_map, decide_eq_true_eq]
    constructor
    · rintro ⟨⟨x, hx, rfl⟩, hv⟩
      exact ⟨x, hx, by simpa using hv, rfl⟩
    · rintro ⟨x, hx, h, rfl⟩
      exact ⟨⟨x, hx, rfl⟩, by simpa using h⟩
  have hmin : ∀ (xs : List K) (x : K), (xs.foldl min x ∈ x :: xs) ∧ ∀ y ∈ x :: xs, xs.foldl min x ≤ y := by
    intro xs
    induction xs with
    | nil => intro x; simp
    | cons a xs ih =>
      intro x
      obtain ⟨h1, h2⟩ := ih (min x a)
      refine ⟨?_, ?_⟩
      · rw [List.foldl_cons]
        rcases List.mem_cons.1 h1 with h | h
        · rw [h]
          rcases min_choice x a with e | e <;> rw [e] <;> simp
        · simp [h]
      · intro y hy
        rw [List.foldl_cons]
        rcases List.mem_cons.1 hy with rfl | hy
        · exact (h2 (min _ a) (by simp)).trans (min_le_left _ _)
        · rcases List.mem_cons.1 hy with rfl | hy
          · exact (h2 (min x _) (by simp)).trans (min_le_right _ _)
          · exact h2 y (by simp [hy])
  have hmax : ∀ (xs : List K) (x : K), (xs.foldl max x ∈ x :: xs) ∧ ∀ y ∈ x :: xs, y ≤ xs.foldl max x := by
    intro xs
    induction xs with
    | nil => intro x; simp
    | cons a xs ih =>
      intro x
      obtain ⟨h1, h2⟩ := ih (max x a)
      refine ⟨?_, ?_⟩
      · rw [List.foldl_cons]
        rcases List.mem_cons.1 h1 with h | h
        · rw [h]
          rcases max_choice x a with e | e <;> rw [e] <;> simp
        · simp [h]
      · intro y hy
        rw [List.foldl_cons]
        rcases List.mem_cons.1 hy with rfl | hy
        · exact (le_max_left _ _).trans (h2 (max _ a) (by simp))
        · rcases List.mem_cons.1 hy with rfl | hy
          · exact (le_max_right _ _).trans (h2 (max x _) (by simp))
          · exact h2 y (by simp [hy])
  unfold useScientific
  simp only
  cases e : (A.map fun x => |x|).filter (fun x => x ≠ 0) with
  | nil =>
    simp only [Bool.false_eq_true, false_iff, not_or, not_exists, not_and]
    have hz : ∀ x ∈ A, x = 0 := by
      intro x hx
      by_contra hne
      have := (hf |x|).2 ⟨x, hx, hne, rfl⟩
      rw [e] at this
      simp at this
    exact ⟨fun x hx h => absurd (hz x hx) h, fun x _ y hy h => absurd (hz y hy) h⟩
  | cons x xs =>
    obtain ⟨m1, m2⟩ := hmin xs x
    obtain ⟨M1, M2⟩ := hmax xs x
    rw [← e] at m1 m2 M1 M2
    obtain ⟨a, ha, ha0, ham⟩ := (hf _).1 m1
    obtain ⟨b, hb, hb0, hbm⟩ := (hf _).1 M1
    have hmpos : 0 < xs.foldl min x := by rw [← ham]; exact abs_pos.2 ha0
    simp only [Bool.or_eq_true, decide_eq_true_eq, lt_div_iff₀ hmpos]
    constructor
    · rintro (h | h)
      · exact Or.inl ⟨a, ha, ha0, by rw [ham]; exact h⟩
      · exact Or.inr ⟨b, hb, a, ha, ha0, by rw [ham, hbm]; exact h⟩
    · rintro (⟨y, hy, hy0, h⟩ | ⟨y, hy, z, hz, hz0, h⟩)
      · exact Or.inl (lt_of_le_of_lt (m2 _ ((hf _).2 ⟨y, hy, hy0, rfl⟩)) h)
      · right
        have hy0 : y ≠ 0 := by
          rintro rfl
          rw [abs_zero] at h
          have := abs_nonneg z
          linarith
        have h1 := m2 _ ((hf _).2 ⟨z, hz, hz0, rfl⟩)
        have h2 := M2 _ ((hf _).2 ⟨y, hy, hy0, rfl⟩)
        linarith

/-- Satisfiable. -/
example : useScientific [(1 : ℚ), 0, -500] = false ∧ useScientific [(1 : ℚ), 2000] = true := by
  constructor
  · rw [Bool.eq_false_iff, Ne, C68_notation]
    norm_num
  · rw [C68_notation]
    right
    exact ⟨2000, by simp, 1, by simp, by norm_num, by norm_num⟩

/-- The printed text without blanks. -/
def unblank (s : List Char) : List Char := s.filter fun ch => ch ≠ ' '

/-- C68: in fixed point notation only zeros at the end of an element's text are blanked, and if the text
contains a decimal point they all are after it. -/
theorem C68_fixed_text (s : List Char) :
    (∃ a k, s = a ++ List.replicate k '0' ∧ (fmterStr true s = a ++ List.replicate k ' ')) ∧
    ('.' ∈ s → ∃ a b k, '.' ∉ b ∧ s = a ++ '.' :: (b ++ List.replicate k '0') ∧
      fmterStr true s = a ++ '.' :: (b ++ List.replicate k ' ')) := by
  have key : ∃ a k, s = a ++ List.replicate k '0' ∧ (fmterStr true s = a ++ List.replicate k ' ') := by
    unfold fmterStr removeTrailingZeros
    simp only [if_true]
    by_cases h : s ≠ ['0']
    · rw [if_pos h]
      have hsplit := List.takeWhile_append_dropWhile (p := fun ch : Char => decide (ch = '0')) (l := s.reverse)
      have hs : s = (s.reverse.dropWhile fun ch => decide (ch = '0')).reverse ++
          (s.reverse.takeWhile fun ch => decide (ch = '0')).reverse := by
        rw [← List.reverse_append, hsplit, List.reverse_reverse]
      have htw : ∀ l : List Char, ∀ ch ∈ l.takeWhile (fun ch => decide (ch = '0')), ch = '0' := by
        intro l
        induction l with
        | nil => simp
        | cons c l ih =>
          intro ch hch
          rw [List.takeWhile_cons] at hch
          split at hch
          · rename_i hc
            rcases List.mem_cons.1 hch with rfl | hch
            · simpa using hc
            · exact ih ch hch
          · simp at hch
      have hrep : (s.reverse.takeWhile fun ch => decide (ch = '0')).reverse =
          List.replicate (s.reverse.takeWhile fun ch => decide (ch = '0')).length '0' := by
        rw [List.eq_replicate_iff]
        refine ⟨by simp, fun b hb => htw _ b (by simpa using hb)⟩
      refine ⟨(s.reverse.dropWhile fun ch => decide (ch = '0')).reverse,
        (s.reverse.takeWhile fun ch => decide (ch = '0')).length, ?_, ?_⟩
      · rw [← hrep]; exact hs
      · have hlen : s.length = (s.reverse.dropWhile fun ch => decide (ch = '0')).length +
            (s.reverse.takeWhile fun ch => decide (ch = '0')).length := by
          conv_lhs => rw [hs]
          simp
        congr 1
        · conv_lhs =>
            rw [hs]
          rw [List.take_append_of_le_length (by simp)]
          rw [List.take_of_length_le (by simp)]
        · congr 1
          omega
    · rw [if_neg h]
      exact ⟨s, 0, by simp, by simp⟩
  refine ⟨key, fun hdot => ?_⟩
  obtain ⟨a, k, h1, h2⟩ := key
  have ha : '.' ∈ a := by
    rw [h1] at hdot
    rcases List.mem_append.1 hdot with h | h
    · exact h
    · exact absurd (List.eq_of_mem_replicate h) (by decide)
  have hlast : ∀ l : List Char, '.' ∈ l → ∃ a b, '.' ∉ b ∧ l = a ++ '.' :: b := by
    intro l
    induction l with
    | nil => simp
    | cons c l ih =>
      intro h
      by_cases hl : '.' ∈ l
      · obtain ⟨a, b, hb, rfl⟩ := ih hl
        exact ⟨c :: a, b, hb, rfl⟩
      · have : c = '.' := by
          rcases List.mem_cons.1 h with h | h
          · exact h.symm
          · exact absurd h hl
        subst this
        exact ⟨[], l, hl, rfl⟩
  obtain ⟨a', b, hb, rfl⟩ := hlast a ha
  exact ⟨a', b, k, hb, by rw [h1]; simp, by rw [h2]; simp⟩

/-- C68 is false of the code for integer arrays: trailing zeros of an integer are blanked although there is
no decimal point, so that the text of `10 z` reads like the text of `z` (for example `[100]` prints as
`[         1  ]`), and zero is printed as blanks only. -/
theorem C68_integers_lose_zeros :
    (∀ z : ℤ, z ≠ 0 → unblank (fmterStr true (rawInt true (10 * z))) = unblank (fmterStr true (rawInt true z))) ∧
    unblank (fmterStr true (rawInt true 0)) = [] := by
  have htrim : ∀ s : List Char, s ≠ ['0'] →
      unblank (fmterStr true s) = unblank (s.reverse.dropWhile fun ch => decide (ch = '0')).reverse := by
    intro s hs
    unfold fmterStr removeTrailingZeros
    simp only [if_true]
    rw [if_pos hs]
    have hsplit := List.takeWhile_append_dropWhile (p := fun ch : Char => decide (ch = '0')) (l := s.reverse)
    have hs' : s = (s.reverse.dropWhile fun ch => decide (ch = '0')).reverse ++
        (s.reverse.takeWhile fun ch => decide (ch = '0')).reverse := by
      rw [← List.reverse_append, hsplit, List.reverse_reverse]
    have htake : s.take (s.reverse.dropWhile fun ch => decide (ch = '0')).length =
        (s.reverse.dropWhile fun ch => decide (ch = '0')).reverse := by
      conv_lhs => arg 2; rw [hs']
      rw [List.take_append_of_le_length (by simp), List.take_of_length_le (by simp)]
    rw [htake]
    unfold unblank
    rw [List.filter_append]
    have h1 : ∀ n, (List.replicate n ' ').filter (fun ch => decide (ch ≠ ' ')) = [] := by
      intro n
      rw [List.filter_eq_nil_iff]
      intro x hx
      rw [List.eq_of_mem_replicate hx]
      decide
    rw [h1, List.append_nil]
  have hpad : ∀ (n : ℕ) (p : List Char),
      unblank ((List.replicate n ' ' ++ p).reverse.dropWhile fun ch => decide (ch = '0')).reverse =
        unblank (p.reverse.dropWhile fun ch => decide (ch = '0')).reverse := by
    intro n p
    have h1 : ∀ n, (List.replicate n ' ').filter (fun ch => decide (ch ≠ ' ')) = [] := by
      intro n
      rw [List.filter_eq_nil_iff]
      intro x hx
      rw [List.eq_of_mem_replicate hx]
      decide
    rw [List.reverse_append, List.dropWhile_append, List.reverse_replicate]
    split
    · rename_i he
      rw [List.isEmpty_iff] at he
      rw [he]
      have : (List.replicate n ' ').dropWhile (fun ch => decide (ch = '0')) = List.replicate n ' ' := by
        cases n with
        | zero => rfl
        | succ n => rw [List.replicate_succ, List.dropWhile_cons_of_neg (by decide)]
      rw [this, List.reverse_replicate]
      exact h1 n
    · rw [List.reverse_append, List.reverse_replicate]
      unfold unblank
      rw [List.filter_append, h1, List.nil_append]
  have hne0 : ∀ z, rawInt true z ≠ ['0'] := by
    intro z h
    have := congrArg List.length h
    unfold rawInt at this
    rw [List.length_append, List.length_replicate] at this
    simp only [List.length_singleton] at this
    omega
  have hkey : ∀ z, unblank (fmterStr true (rawInt true z)) =
      unblank ((printInt z).reverse.dropWhile fun ch => decide (ch = '0')).reverse := by
    intro z
    rw [htrim _ (hne0 z)]
    exact hpad _ _
  have hpn : ∀ n : ℕ, 0 < n → printNat (10 * n) = printNat n ++ ['0'] := by
    intro n hn
    conv_lhs => unfold printNat
    rw [if_neg (by omega), show 10 * n / 10 = n by omega, show 10 * n % 10 = 0 by omega]
  refine ⟨fun z hz => ?_, ?_⟩
  · rw [hkey, hkey]
    have : printInt (10 * z) = printInt z ++ ['0'] := by
      unfold printInt
      have hn : (10 * z).natAbs = 10 * z.natAbs := by omega
      rw [hn, hpn _ (by omega)]
      by_cases h : z < 0
      · rw [if_pos h, if_pos (by omega)]; rfl
      · rw [if_neg h, if_neg (by omega)]
    rw [this, List.reverse_append]
    show unblank (List.dropWhile _ ('0' :: (printInt z).reverse)).reverse = _
    rw [List.dropWhile_cons_of_pos (by decide)]
  · rw [hkey]
    have : printInt 0 = ['0'] := by
      unfold printInt
      rw [if_neg (by omega)]
      unfold printNat
      rfl
    rw [this]
    decide

/-- The same as whole outputs: `[100, 1]` and `[0]`. -/
theorem C68_integers_example :
    printInts {} [100, 1] = .ok "[         1              1]\n".toList ∧
    printInts {} [0] = .ok "[            ]\n".toList := by
  have h1 : printInt 100 = "100".toList := by simp [printInt, printNat]
  have h2 : printInt 1 = "1".toList := by simp [printInt, printNat]
  have h3 : printInt 0 = "0".toList := by simp [printInt, printNat]
  constructor
  · unfold printInts printArray
    simp only [List.map_cons, List.map_nil, rawInt, h1, h2]
    decide
  · unfold printInts printArray
    simp only [List.map_cons, List.map_nil, rawInt, h3]
    decide

/-- C68 for scalars: `print(x)` of NaN or an infinity reads options that no longer exist; other values are
printed followed by a newline. -/
theorem C68_scalar (isnan isinf : α → Bool) (raw : α → List Char) (x : α) :
    (isnan x = true ∨ isinf x = true → printScalar isnan isinf raw x = .ub) ∧
    (isnan x = false → isinf x = false → printScalar isnan isinf raw x = .ok (raw x ++ ['\n'])) := by
  unfold printScalar
  refine ⟨?_, ?_⟩
  · rintro (h | h) <;> simp [h]
  · intro h h'; simp [h, h']

end SciCpp
