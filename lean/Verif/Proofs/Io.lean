import Verif.Model.Io
import Verif.Spec.Io
import Mathlib.Tactic.IntervalCases
import Mathlib.Tactic.Linarith
/-
  Lemmas about scicpp/core/io.hpp.
-/
namespace SciCpp

variable {α : Type}

/-- `List.splitOn` by recursion. -/
theorem splitOn_cons (sep ch : Char) (s : List Char) :
    (ch :: s).splitOn sep = if ch = sep then [] :: s.splitOn sep
      else (s.splitOn sep).modifyHead (List.cons ch) := by
  show (ch :: s).splitOnP (· == sep) = _
  rw [List.splitOnP_cons_eq_if_modifyHead]
  simp only [beq_iff_eq]
  rfl

theorem splitOn_ne_nil (sep : Char) (s : List Char) : s.splitOn sep ≠ [] := List.splitOnP_ne_nil _ _

/-- Extraction by `getline` is splitting, without a final empty piece. -/
theorem getlines_eq (sep : Char) (s : List Char) :
    getlines sep s = if (s.splitOn sep).getLast? = some [] then (s.splitOn sep).dropLast
      else s.splitOn sep := by
  induction s with
  | nil => simp [getlines]
  | cons ch s ih =>
    rw [splitOn_cons]
    have hne := splitOn_ne_nil sep s
    by_cases h : ch = sep
    · simp only [getlines, h, if_true]
      rw [ih]
      obtain ⟨t, ts, e⟩ := List.exists_cons_of_ne_nil hne
      rw [e]
      by_cases hl : (t :: ts).getLast? = some []
      · rw [if_pos hl, if_pos (by simpa [List.getLast?_cons_cons] using hl)]
        simp
      · rw [if_neg hl, if_neg (by simpa [List.getLast?_cons_cons] using hl)]
    · simp only [getlines, h, if_false]
      rw [ih]
      obtain ⟨t, ts, e⟩ := List.exists_cons_of_ne_nil hne
      rw [e]
      cases ts with
      | nil =>
        cases t with
        | nil => simp [List.modifyHead]
        | cons x xs => simp [List.modifyHead]
      | cons t2 ts =>
        by_cases hl : (t :: t2 :: ts).getLast? = some []
        · rw [if_pos hl]
          rw [if_pos (by simpa [List.modifyHead, List.getLast?_cons_cons] using hl)]
          simp [List.modifyHead]
        · rw [if_neg hl]
          rw [if_neg (by simpa [List.modifyHead, List.getLast?_cons_cons] using hl)]
          simp [List.modifyHead]

theorem getlines_fileLines (s : List Char) : getlines '\n' s = fileLines s := getlines_eq _ _

theorem getlines_filter (sep : Char) (s : List Char) :
    (getlines sep s).filter (fun f => f ≠ []) = nonEmptyFields sep s := by
  rw [getlines_eq]
  unfold nonEmptyFields lineFields
  split
  · rename_i h
    have := List.dropLast_append_getLast? [] h
    conv_rhs => rw [← this]
    simp
  · rfl

theorem cstr_eq {s : List Char} (h : '\x00' ∉ s) : cstr s = s := by
  unfold cstr
  induction s with
  | nil => rfl
  | cons ch s ih =>
    rw [List.mem_cons, not_or] at h
    rw [List.takeWhile_cons_of_pos (by simpa using fun e : ch = _ => h.1 e.symm), ih h.2]

theorem iterTokens_nil (toks : List (List Char)) (c u : ℕ) :
    iterTokens [] toks c u =
      ((toks.filter (fun f => f ≠ [])).zipIdx c).map fun p => (p.1, (p.2 : ℤ)) := by
  induction toks generalizing c u with
  | nil => rfl
  | cons t ts ih =>
    cases t with
    | nil =>
      simp only [iterTokens, List.isEmpty_nil, if_true]
      rw [ih]; rfl
    | cons ch t =>
      simp only [iterTokens, List.isEmpty_cons, List.isEmpty_nil, Bool.true_or, if_true,
        Bool.false_eq_true, if_false]
      rw [if_neg (by simp)]
      have := ih (c + 1) (u + 1)
      push_cast at this
      rw [this]
      simp

theorem iterTokens_cons (usecols : List ℤ) (toks : List (List Char)) (c u : ℕ) (x : ℤ) (rest : List ℤ)
    (hd : usecols.drop u = x :: rest) (hs : (x :: rest).Pairwise (· < ·)) (hc : (c : ℤ) ≤ x) :
    iterTokens usecols toks c u =
      (((toks.filter (fun f => f ≠ [])).zipIdx c).map fun p => (p.1, (p.2 : ℤ))).filter
        fun p => p.2 ∈ x :: rest := by
  have hlen : u < usecols.length := by
    by_contra h
    rw [List.drop_eq_nil_of_le (by omega)] at hd
    exact absurd hd (by simp)
  have hne : usecols.isEmpty = false := by
    cases usecols with
    | nil => simp at hlen
    | cons => rfl
  have hget : usecols[u]? = some x := by
    rw [List.drop_eq_getElem_cons hlen] at hd
    rw [List.getElem?_eq_getElem hlen]
    injection hd with h1 h2
    rw [h1]
  have hrest : usecols.drop (u + 1) = rest := by
    rw [List.drop_eq_getElem_cons hlen] at hd
    injection hd
  induction toks generalizing c u x rest with
  | nil => rfl
  | cons t ts ih =>
    cases t with
    | nil =>
      simp only [iterTokens, List.isEmpty_nil, if_true]
      rw [ih c u x rest hd hs hc hlen hget hrest]; rfl
    | cons ch t =>
      simp only [iterTokens, List.isEmpty_cons, hne, Bool.false_or, hget, Bool.false_eq_true, if_false]
      have hf : (((ch :: t) :: ts).filter (fun f => decide (f ≠ []))) =
          (ch :: t) :: ts.filter (fun f => decide (f ≠ [])) := by simp
      rw [hf, List.zipIdx_cons, List.map_cons]
      by_cases hx : x = (c : ℤ)
      · subst hx
        simp only [beq_self_eq_true, if_true]
        rw [List.filter_cons_of_pos (by simp)]
        congr 1
        cases rest with
        | nil =>
          have : u + 1 = usecols.length := by
            have := List.drop_eq_nil_iff.1 hrest
            omega
          rw [if_pos this]
          symm
          rw [List.filter_eq_nil_iff]
          intro p hp
          obtain ⟨q, hq, rfl⟩ := List.mem_map.1 hp
          have := (List.mem_zipIdx hq).1
          simp only [List.mem_singleton, decide_eq_true_eq]
          omega
        | cons y rest' =>
          have hlen' : u + 1 < usecols.length := by
            by_contra h
            rw [List.drop_eq_nil_of_le (by omega)] at hrest
            exact absurd hrest (by simp)
          rw [if_neg (by omega)]
          have hlt : (c : ℤ) < y := (List.pairwise_cons.1 hs).1 y (by simp)
          have h2 := ih (c + 1) (u + 1) y rest' hrest (List.pairwise_cons.1 hs).2 (by push_cast; omega)
            hlen' (by
              have h3 := hrest
              rw [List.drop_eq_getElem_cons hlen'] at h3
              rw [List.getElem?_eq_getElem hlen']
              injection h3 with h1 h2
              rw [h1]) (by
              have h3 := hrest
              rw [List.drop_eq_getElem_cons hlen'] at h3
              injection h3)
          push_cast at h2
          rw [h2]
          apply List.filter_congr
          intro p hp
          obtain ⟨q, hq, rfl⟩ := List.mem_map.1 hp
          have := (List.mem_zipIdx hq).1
          simp only [List.mem_cons, decide_eq_decide]
          constructor
          · exact Or.inr
          · rintro (h | h)
            · omega
            · exact h
      · have hb : (some x == some (c : ℤ)) = false := by simp [hx]
        simp only [hb, Bool.false_eq_true, if_false]
        rw [List.filter_cons_of_neg (by
          simp only [List.mem_cons, decide_eq_true_eq, not_or]
          refine ⟨fun h => hx h.symm, fun h => ?_⟩
          have := (List.pairwise_cons.1 hs).1 _ h
          omega)]
        have h2 := ih (c + 1) u x rest hd hs (by push_cast; omega) hlen hget hrest
        push_cast at h2
        exact h2

/-- The selected non-empty fields, for increasing column numbers. -/
theorem iterateLine_eq {sep : Char} {usecols : List ℤ} {line : List Char} (h0 : '\x00' ∉ line)
    (hu : GoodCols usecols) :
    iterateLine sep usecols line = selectFields usecols (nonEmptyFields sep line) := by
  unfold iterateLine selectFields
  rw [cstr_eq h0]
  cases usecols with
  | nil =>
    have := iterTokens_nil (getlines sep line) 0 0
    push_cast at this
    rw [this, getlines_filter, List.filter_eq_self.2]
    intro p _
    simp
  | cons x rest =>
    have := iterTokens_cons (x :: rest) (getlines sep line) 0 0 x rest rfl hu.1
      (by have := hu.2 x (by simp); simpa using this)
    push_cast at this
    rw [this, getlines_filter]
    apply List.filter_congr
    intro p _
    simp

theorem fileLoop_eq {comments : Char} (hc : comments ≠ '\x00') (ls : List (List Char)) (m : ℤ) :
    fileLoop comments ls m =
      if m < 0 then ls.filter fun l => l.head? ≠ some comments
      else (ls.filter fun l => l.head? ≠ some comments).take m.toNat := by
  have hh : ∀ l : List Char, (l.headD '\x00' ≠ comments) ↔ l.head? ≠ some comments := by
    intro l
    cases l with
    | nil => simpa using fun h => hc h.symm
    | cons => simp
  induction ls generalizing m with
  | nil => simp [fileLoop]
  | cons l ls ih =>
    by_cases hm : m = 0
    · subst hm; simp [fileLoop]
    · simp only [fileLoop, hm, if_false]
      by_cases hl : l.head? ≠ some comments
      · rw [if_pos ((hh l).2 hl), ih, List.filter_cons_of_pos (by simpa using hl)]
        by_cases hneg : m < 0
        · rw [if_pos hneg, if_pos (by omega)]
        · rw [if_neg hneg, if_neg (by omega)]
          obtain ⟨n, rfl⟩ : ∃ n : ℕ, m = (n : ℤ) + 1 := ⟨(m - 1).toNat, by omega⟩
          have e1 : ((n : ℤ) + 1 - 1).toNat = n := by omega
          have e2 : ((n : ℤ) + 1).toNat = n + 1 := by omega
          rw [e1, e2, List.take_succ_cons]
      · rw [if_neg (fun h => hl ((hh l).1 h)), ih, List.filter_cons_of_neg (by simpa using hl)]

theorem iterateFile_eq {comments : Char} (hc : comments ≠ '\x00') (s : List Char) (skip m : ℤ) :
    iterateFile (some s) comments skip m = dataLines comments skip m s := by
  unfold iterateFile dataLines
  simp only
  rw [fileLoop_eq hc, getlines_fileLines]

/-- The value of a field: the converter of its key if there is one, else the built-in conversion. -/
def fieldValue (toNum : List Char → α) (d : Dicts α) (key : ℤ) (tok : List Char) : α :=
  match d.converters.lookup key with
  | some f => f tok
  | none => toNum tok

/-- Whether a value passes the filter of its key, if there is one. -/
def fieldPasses (d : Dicts α) (key : ℤ) (v : α) : Bool :=
  match d.filters.lookup key with
  | some p => p v
  | none => true

theorem convertTok_eq (toNum : List Char → α) (d : Dicts α) (key : ℤ) (tok : List Char)
    (h : '\x00' ∉ tok) :
    convertTok toNum d key tok = if fieldPasses d key (fieldValue toNum d key tok)
      then some (fieldValue toNum d key tok) else none := by
  unfold convertTok fieldPasses fieldValue
  rw [cstr_eq h]
  cases d.converters.lookup key <;> cases d.filters.lookup key <;> simp

theorem nul_getlines {sep : Char} {s : List Char} (h : '\x00' ∉ s) :
    ∀ t ∈ getlines sep s, '\x00' ∉ t := by
  induction s with
  | nil => simp [getlines]
  | cons ch s ih =>
    rw [List.mem_cons, not_or] at h
    intro t ht
    unfold getlines at ht
    split at ht
    · rcases List.mem_cons.1 ht with rfl | ht
      · simp
      · exact ih h.2 t ht
    · split at ht
      · rw [List.mem_singleton.1 ht]; simpa using h.1
      · rename_i e
        rcases List.mem_cons.1 ht with rfl | ht
        · rw [List.mem_cons, not_or]
          exact ⟨h.1, ih h.2 _ (by rw [e]; simp)⟩
        · exact ih h.2 t (by rw [e]; simp [ht])

theorem mem_iterTokens {usecols : List ℤ} {toks : List (List Char)} {c : ℤ} {u : ℕ}
    {p : List Char × ℤ} (h : p ∈ iterTokens usecols toks c u) : p.1 ∈ toks := by
  induction toks generalizing c u with
  | nil => simp [iterTokens] at h
  | cons t ts ih =>
    unfold iterTokens at h
    split at h
    · exact List.mem_cons_of_mem _ (ih h)
    · split at h
      · rcases List.mem_cons.1 h with rfl | h
        · simp
        · split at h
          · simp at h
          · exact List.mem_cons_of_mem _ (ih h)
      · exact List.mem_cons_of_mem _ (ih h)

theorem nul_iterateLine {sep : Char} {usecols : List ℤ} {line : List Char} :
    ∀ p ∈ iterateLine sep usecols line, '\x00' ∉ p.1 := by
  intro p hp
  have h1 : '\x00' ∉ cstr line := by
    have hall : ∀ l : List Char, ∀ x ∈ cstr l, x ≠ '\x00' := by
      intro l
      induction l with
      | nil => simp [cstr]
      | cons ch l ih =>
        intro x hx
        unfold cstr at hx
        by_cases hc : ch = '\x00'
        · rw [List.takeWhile_cons_of_neg (by simpa using hc)] at hx
          simp at hx
        · rw [List.takeWhile_cons_of_pos (by simpa using hc)] at hx
          rcases List.mem_cons.1 hx with rfl | hx
          · exact hc
          · exact ih x hx
    exact fun h => hall _ _ h rfl
  exact nul_getlines h1 _ (mem_iterTokens hp)

/-- A loop that appends a chunk per element, or is undefined at a bad element. -/
theorem foldl_res_append {β γ : Type} (good : β → Bool) (out : β → List γ) (ls : List β)
    (f : Res (List γ) → β → Res (List γ)) (hu : ∀ b, f .ub b = .ub)
    (hf : ∀ r b, f (.ok r) b = if good b then .ok (r ++ out b) else .ub) (r : List γ) :
    ls.foldl f (.ok r) = if ls.all good then .ok (r ++ ls.flatMap out) else .ub := by
  have hub : ∀ ls : List β, ls.foldl f .ub = .ub := by
    intro ls
    induction ls with
    | nil => rfl
    | cons b ls ih => rw [List.foldl_cons, hu, ih]
  induction ls generalizing r with
  | nil => simp
  | cons b ls ih =>
    rw [List.foldl_cons, hf]
    by_cases hb : good b
    · rw [if_pos hb, ih]
      simp [hb]
    · rw [if_neg hb, hub]
      simp [hb]

/-- Cutting a concatenation of rows of `n > 0` elements gives the rows back. -/
theorem chunks_flatten {β : Type} {n : ℕ} (hn : 0 < n) (rows : List (List β))
    (h : ∀ r ∈ rows, r.length = n) :
    ((List.range (rows.flatten.length / n)).map fun i : ℕ => (rows.flatten.drop (i * n)).take n) = rows := by
  have hl : rows.flatten.length = rows.length * n := by
    rw [List.length_flatten]
    rw [List.eq_replicate_of_mem (a := n) (l := rows.map List.length) (by
      intro b hb
      obtain ⟨r, hr, rfl⟩ := List.mem_map.1 hb
      exact h r hr)]
    simp
  rw [hl, Nat.mul_div_cancel _ hn]
  clear hl
  induction rows with
  | nil => rfl
  | cons r rows ih =>
    have hr := h r (by simp)
    rw [List.length_cons, List.range_succ_eq_map, List.map_cons, List.map_map]
    congr 1
    · simp [hr.symm]
    · conv_rhs => rw [← ih fun r hr => h r (by simp [hr])]
      apply List.map_congr_left
      intro i _
      simp only [Function.comp, List.flatten_cons]
      rw [List.drop_append, List.drop_eq_nil_of_le (by rw [hr]; nlinarith)]
      have : (i + 1) * n - r.length = i * n := by rw [hr, Nat.succ_mul]; omega
      rw [show (i.succ * n - r.length) = i * n from this]
      simp

/-! ### Writing -/

theorem splitOn_append {sep : Char} {a b : List Char} (h : sep ∉ a) :
    (a ++ sep :: b).splitOn sep = a :: b.splitOn sep := by
  induction a with
  | nil => rw [List.nil_append, splitOn_cons]; simp
  | cons ch a ih =>
    rw [List.mem_cons, not_or] at h
    rw [List.cons_append, splitOn_cons, if_neg (fun e => h.1 e.symm), ih h.2]
    rfl

theorem splitOn_none {sep : Char} {a : List Char} (h : sep ∉ a) : a.splitOn sep = [a] := by
  induction a with
  | nil => rfl
  | cons ch a ih =>
    rw [List.mem_cons, not_or] at h
    rw [splitOn_cons, if_neg (fun e => h.1 e.symm), ih h.2]
    rfl

/-- The contents of a line of cells. -/
def joinCells (delim : Char) : List (List Char) → List Char
  | [] => []
  | [x] => x
  | x :: xs => x ++ delim :: joinCells delim xs

theorem savetxtRow_eq (delim nl : Char) (cells : List (List Char)) (h : cells ≠ []) :
    savetxtRow delim nl cells = joinCells delim cells ++ [nl] := by
  induction cells with
  | nil => exact absurd rfl h
  | cons x xs ih =>
    cases xs with
    | nil => rfl
    | cons y ys =>
      show x ++ [delim] ++ savetxtRow delim nl (y :: ys) = (x ++ delim :: joinCells delim (y :: ys)) ++ [nl]
      rw [ih (by simp)]
      simp

theorem splitOn_joinCells {delim : Char} (cells : List (List Char)) (h : cells ≠ [])
    (hd : ∀ x ∈ cells, delim ∉ x) : (joinCells delim cells).splitOn delim = cells := by
  induction cells with
  | nil => exact absurd rfl h
  | cons x xs ih =>
    cases xs with
    | nil => exact splitOn_none (hd x (by simp))
    | cons y ys =>
      show (x ++ delim :: joinCells delim (y :: ys)).splitOn delim = _
      rw [splitOn_append (hd x (by simp)), ih (by simp) fun z hz => hd z (by simp [hz])]

theorem notMem_joinCells {delim ch : Char} (hne : ch ≠ delim) (cells : List (List Char))
    (h : ∀ x ∈ cells, ch ∉ x) : ch ∉ joinCells delim cells := by
  induction cells with
  | nil => simp [joinCells]
  | cons x xs ih =>
    cases xs with
    | nil => exact h x (by simp)
    | cons y ys =>
      show ch ∉ x ++ delim :: joinCells delim (y :: ys)
      simp only [List.mem_append, List.mem_cons, not_or]
      exact ⟨h x (by simp), hne, ih fun z hz => h z (by simp [hz])⟩

theorem head_joinCells {delim : Char} (x : List Char) (xs : List (List Char)) (h : x ≠ []) :
    (joinCells delim (x :: xs)).head? = x.head? := by
  cases x with
  | nil => exact absurd rfl h
  | cons ch x => cases xs <;> rfl

theorem fileLines_append (lines : List (List Char)) (h : ∀ l ∈ lines, '\n' ∉ l) :
    fileLines (lines.flatMap fun l => l ++ ['\n']) = lines := by
  have : (lines.flatMap fun l => l ++ ['\n']).splitOn '\n' = lines ++ [[]] := by
    induction lines with
    | nil => rfl
    | cons l ls ih =>
      rw [List.flatMap_cons, List.append_assoc, List.singleton_append, splitOn_append (h l (by simp)),
        ih fun l hl => h l (by simp [hl])]
      rfl
  unfold fileLines
  simp only [this]
  simp

/-! ### Integers -/

theorem digitVal_ofNat {d : ℕ} (h : d < 10) : digitVal (Char.ofNat (48 + d)) = some d := by
  interval_cases d <;> decide

theorem readDigits_append (a b : List Char) (acc : ℕ) (h : ∀ ch ∈ a, (digitVal ch).isSome) :
    readDigits (a ++ b) acc = readDigits b (readDigits a acc) := by
  induction a generalizing acc with
  | nil => rfl
  | cons ch a ih =>
    have h1 := h ch (by simp)
    obtain ⟨v, hv⟩ := Option.isSome_iff_exists.1 h1
    simp only [List.cons_append, readDigits, hv]
    exact ih _ fun c hc => h c (by simp [hc])

theorem printNat_digits (n : ℕ) : ∀ ch ∈ printNat n, ∃ d < 10, ch = Char.ofNat (48 + d) := by
  induction n using Nat.strong_induction_on with
  | _ n ih =>
    intro ch hch
    unfold printNat at hch
    split at hch
    · rename_i h
      exact ⟨n, h, by simpa using hch⟩
    · rename_i h
      rcases List.mem_append.1 hch with h1 | h1
      · exact ih (n / 10) (by omega) ch h1
      · exact ⟨n % 10, by omega, by simpa using h1⟩

theorem printNat_ne_nil (n : ℕ) : printNat n ≠ [] := by
  unfold printNat
  split <;> simp

theorem readDigits_printNat (n : ℕ) : readDigits (printNat n) 0 = n := by
  induction n using Nat.strong_induction_on with
  | _ n ih =>
    unfold printNat
    split
    · rename_i h
      simp [readDigits, digitVal_ofNat h]
    · rename_i h
      rw [readDigits_append _ _ _ (fun ch hch => by
        obtain ⟨d, hd, rfl⟩ := printNat_digits _ ch hch
        rw [digitVal_ofNat hd]; rfl), ih (n / 10) (by omega)]
      simp only [readDigits, digitVal_ofNat (show n % 10 < 10 by omega)]
      omega

/-- `atoi` reads back any printed integer in the range of `int`, and only those. -/
theorem atoi_printInt (z : ℤ) :
    atoi (printInt z) = if -(2 : ℤ) ^ 31 ≤ z ∧ z < 2 ^ 31 then .ok z else .ub := by
  have key : ∀ n : ℕ, ∃ d, d < 10 ∧ ∃ t, printNat n = Char.ofNat (48 + d) :: t := by
    intro n
    cases e : printNat n with
    | nil => exact absurd e (printNat_ne_nil n)
    | cons ch t =>
      obtain ⟨d, hd, rfl⟩ := printNat_digits n ch (by rw [e]; simp)
      exact ⟨d, hd, t, rfl⟩
  unfold atoi printInt
  by_cases hz : z < 0
  · simp only [hz, if_true]
    have e : (List.dropWhile isSpaceC ('-' :: printNat z.natAbs)) = '-' :: printNat z.natAbs := by
      rw [List.dropWhile_cons_of_neg (by decide)]
    rw [e]
    simp only [readSigned, readDigits_printNat]
    have : (-(z.natAbs : ℤ)) = z := by omega
    rw [this]
  · simp only [hz, if_false]
    obtain ⟨d, hd, t, ht⟩ := key z.natAbs
    have hs : isSpaceC (Char.ofNat (48 + d)) = false := by interval_cases d <;> decide
    have e : (List.dropWhile isSpaceC (printNat z.natAbs)) = printNat z.natAbs := by
      rw [ht, List.dropWhile_cons_of_neg (by simp [hs])]
    rw [e]
    have hm : readSigned (printNat z.natAbs) = (readDigits (printNat z.natAbs) 0 : ℤ) := by
      unfold readSigned
      split
      · rename_i t' h'
        rw [ht] at h'
        injection h' with h1 h2
        exfalso; revert h1; interval_cases d <;> decide
      · rename_i t' h'
        rw [ht] at h'
        injection h' with h1 h2
        exfalso; revert h1; interval_cases d <;> decide
      · rfl
    have : ((z.natAbs : ℕ) : ℤ) = z := by omega
    simp only [hm, readDigits_printNat, this]

/-- The characters of a printed integer. -/
theorem mem_printInt {z : ℤ} {ch : Char} (h : ch ∈ printInt z) :
    ch = '-' ∨ ∃ d < 10, ch = Char.ofNat (48 + d) := by
  unfold printInt at h
  split at h
  · rcases List.mem_cons.1 h with h | h
    · exact Or.inl h
    · exact Or.inr (printNat_digits _ ch h)
  · exact Or.inr (printNat_digits _ ch h)

theorem printInt_ne_nil (z : ℤ) : printInt z ≠ [] := by
  unfold printInt
  split
  · simp
  · exact printNat_ne_nil _

end SciCpp
