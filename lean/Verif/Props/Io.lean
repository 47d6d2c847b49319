import Verif.Proofs.Io
import Mathlib.Data.List.GetD
/-
  C62, C63 — text files (scicpp/core/io.hpp).
-/
namespace SciCpp

variable {α : Type}

/-! ## C62 -/

/-- C62, one line (with NUL-free contents).  For increasing, non-negative column numbers (or none, which
selects everything) the fields extracted are the selected ones in file order.  Missing: columns are
numbered among the NON-EMPTY fields only, so an empty field shifts the later ones
(`C62_empty_fields_shift_columns`). -/
theorem C62_line_fields_partial {sep : Char} {usecols : List ℤ} {line : List Char} (h0 : '\x00' ∉ line)
    (hu : GoodCols usecols) :
    iterateLine sep usecols line = selectFields usecols (nonEmptyFields sep line) ∧
    ((∀ f ∈ lineFields sep line, f ≠ []) →
      iterateLine sep usecols line = selectFields usecols (lineFields sep line)) := by
  refine ⟨iterateLine_eq h0 hu, fun h => ?_⟩
  rw [iterateLine_eq h0 hu, nonEmptyFields, List.filter_eq_self.2]
  simpa using h

/-- Satisfiable: columns 0 and 2 of `"1.5;abc;;-2"`. -/
example : GoodCols [0, 2] ∧
    iterateLine ';' [0, 2] "1.5;abc;;-2".toList = [("1.5".toList, 0), ("-2".toList, 2)] := by
  refine ⟨by unfold GoodCols; decide, by decide⟩

/-- C62 is false of the code: an empty field shifts the columns after it. -/
theorem C62_empty_fields_shift_columns :
    iterateLine ',' [1] "a,,b".toList = [("b".toList, 1)] ∧
    selectFields [1] (lineFields ',' "a,,b".toList) = [([], 1)] := by
  constructor <;> decide

/-- C62: what happens for column lists that are not strictly increasing: with a negative column number
first nothing at all is read, a repeated column is read once and blocks all later ones, and with
decreasing columns only the first one is read. -/
theorem C62_other_column_lists (sep : Char) (line : List Char) :
    (∀ (x : ℤ) (rest : List ℤ), x < 0 → iterateLine sep (x :: rest) line = []) ∧
    iterateLine ',' [0, 0, 1] "a,b,c".toList = [("a".toList, 0)] ∧
    iterateLine ',' [2, 0] "a,b,c".toList = [("c".toList, 2)] := by
  refine ⟨fun x rest hx => ?_, by decide, by decide⟩
  have : ∀ (toks : List (List Char)) (c : ℤ), 0 ≤ c → iterTokens (x :: rest) toks c 0 = [] := by
    intro toks
    induction toks with
    | nil => intros; rfl
    | cons t ts ih =>
      intro c hc
      unfold iterTokens
      split
      · exact ih c hc
      · have hb : ((x :: rest)[0]? == some c) = false := by
          have : x ≠ c := by omega
          simp [this]
        simp only [List.isEmpty_cons, Bool.false_or, hb, Bool.false_eq_true, if_false]
        exact ih (c + 1) (by omega)
  exact this _ 0 (le_refl _)

/-- C62, the file: the lines processed are the data lines of the file, in order — after `skiprows`
lines, without the comment lines, at most `max_rows` of them (comment lines do not count; a negative
limit means no limit).  A file that cannot be opened is silently an empty one. -/
theorem C62_file_lines {comments : Char} (hc : comments ≠ '\x00') (skiprows maxRows : ℤ) :
    (∀ s : List Char, iterateFile (some s) comments skiprows maxRows = dataLines comments skiprows maxRows s) ∧
    iterateFile none comments skiprows maxRows = [] :=
  ⟨fun s => iterateFile_eq hc s skiprows maxRows, rfl⟩

/-- Satisfiable: a header, a comment, three data lines without final newline, at most two rows. -/
example : iterateFile (some "x y\n#c\n1 2\n#d\n3 4\n5 6".toList) '#' 1 2 = ["1 2".toList, "3 4".toList] := by
  decide

/-- C62, a row of a tuple file: the values are those of the selected fields, `d.converters` and
`d.filters` are keyed by the field number in the file. -/
def tupleRow (conv : ℕ → List Char → α) (d : Dicts α) (sel : List (List Char × ℤ)) : List α :=
  sel.zipIdx.map fun ti => fieldValue (conv ti.2) d ti.1.2 ti.1.1

/-- Every value of the row passes the filter of its field number. -/
def tupleRowPasses (conv : ℕ → List Char → α) (d : Dicts α) (sel : List (List Char × ℤ)) : Bool :=
  sel.zipIdx.all fun ti => fieldPasses d ti.1.2 (fieldValue (conv ti.2) d ti.1.2 ti.1.1)

/-- C62, `loadtxt<T1, …, Tk>`: defined exactly when every data line has exactly `k` selected fields, and
then it is the rows of values, in file order, of the lines all of whose values pass their filters. -/
theorem C62_loadtxt_tuples (conv : ℕ → List Char → α) (k : ℕ) (d : Dicts α) (o : LoadOpts)
    (file : Option (List Char)) :
    let sel := iterateLine o.delimiter o.usecols
    let lines := iterateFile file o.comments o.skiprows o.maxRows
    loadtxtTuples conv k d o file =
      if ∀ l ∈ lines, (sel l).length = k
      then .ok ((lines.filter fun l => tupleRowPasses conv d (sel l)).map fun l => tupleRow conv d (sel l))
      else .ub := by
  intro sel lines
  have hrow : ∀ l, (sel l).zipIdx.map (fun ti => convertTok (conv ti.2) d ti.1.2 ti.1.1) =
      (sel l).zipIdx.map fun ti => if fieldPasses d ti.1.2 (fieldValue (conv ti.2) d ti.1.2 ti.1.1)
        then some (fieldValue (conv ti.2) d ti.1.2 ti.1.1) else none := by
    intro l
    apply List.map_congr_left
    intro ti hti
    rw [convertTok_eq]
    have hm : ti.1 ∈ sel l := (List.mem_zipIdx hti).2.2 ▸ List.getElem_mem _
    exact nul_iterateLine _ hm
  have hall : ∀ l, ((sel l).zipIdx.map (fun ti => convertTok (conv ti.2) d ti.1.2 ti.1.1)).all Option.isSome
      = tupleRowPasses conv d (sel l) := by
    intro l
    rw [hrow, List.all_map]
    unfold tupleRowPasses
    congr 1
    funext ti
    simp only [Function.comp]
    split <;> simp_all
  have hval : ∀ l, tupleRowPasses conv d (sel l) = true →
      ((sel l).zipIdx.map (fun ti => convertTok (conv ti.2) d ti.1.2 ti.1.1)).filterMap id =
        tupleRow conv d (sel l) := by
    intro l hl
    rw [hrow, List.filterMap_map]
    unfold tupleRow
    rw [← List.filterMap_eq_map]
    apply List.filterMap_congr
    intro ti hti
    have := List.all_eq_true.1 hl ti hti
    simp only [Function.comp, id]
    rw [if_pos this]
  have hfold := foldl_res_append (β := List Char) (γ := List α) (fun l => (sel l).length == k)
    (fun l => if tupleRowPasses conv d (sel l) then [tupleRow conv d (sel l)] else []) lines
    (fun st line => do
      let res ← st
      let row ← loadLineTuple conv k d o line
      if row.all Option.isSome then pure (res ++ [row.filterMap id]) else pure res)
    (fun b => rfl) (fun r l => by
      show (do
        let row ← loadLineTuple conv k d o l
        if row.all Option.isSome then pure (r ++ [row.filterMap id]) else pure r) = _
      unfold loadLineTuple
      show (do
        let row ← (do require ((sel l).length == k); pure ((sel l).zipIdx.map fun ti : (List Char × ℤ) × ℕ => convertTok (conv ti.2) d ti.1.2 ti.1.1) : Res (List (Option α)))
        if row.all Option.isSome then pure (r ++ [row.filterMap id]) else pure r) = _
      by_cases hk : ((sel l).length == k) = true
      · rw [hk]
        simp only [require_true, Res.bind_ok, Res.pure_eq, if_true]
        rw [hall l]
        by_cases hp : tupleRowPasses conv d (sel l) = true
        · rw [if_pos hp, if_pos hp, hval l hp]
        · rw [if_neg hp, if_neg hp, List.append_nil]
      · have hk' : ((sel l).length == k) = false := by simpa using hk
        rw [hk']
        rfl) []
  have hlhs : loadtxtTuples conv k d o file = _ := hfold
  rw [hlhs]
  have hcond : (lines.all fun l => (sel l).length == k) = true ↔ ∀ l ∈ lines, (sel l).length = k := by
    simp
  by_cases hg : ∀ l ∈ lines, (sel l).length = k
  · rw [if_pos (hcond.2 hg), if_pos hg, List.nil_append]
    congr 1
    clear_value lines
    clear hg hcond hfold hlhs
    induction lines with
    | nil => rfl
    | cons l ls ih =>
      rw [List.flatMap_cons, ih, List.filter_cons]
      split <;> simp_all
  · rw [if_neg (fun h => hg (hcond.1 h)), if_neg hg]

/-- Satisfiable: two columns, the first filtered. -/
example : loadtxtTuples (fun _ => id) 2 { filters := [(0, fun v => v ≠ "x".toList)] } {}
    (some "a b\nx y\nc d\n".toList) = .ok [["a".toList, "b".toList], ["c".toList, "d".toList]] := by
  decide

/-- C62 corollary, `loadtxt<T1, …, Tk>` for increasing columns in terms of the file alone. -/
theorem C62_loadtxt_tuples_plain {comments : Char} (hc : comments ≠ '\x00') {usecols : List ℤ}
    (hu : GoodCols usecols) (conv : ℕ → List Char → α) (k : ℕ) (delimiter : Char) (skiprows maxRows : ℤ)
    (s : List Char) (h0 : '\x00' ∉ s)
    (hk : ∀ l ∈ dataLines comments skiprows maxRows s,
      (selectFields usecols (nonEmptyFields delimiter l)).length = k) :
    loadtxtTuples conv k {} ⟨comments, delimiter, skiprows, usecols, maxRows⟩ (some s) =
      .ok ((dataLines comments skiprows maxRows s).map fun l =>
        (selectFields usecols (nonEmptyFields delimiter l)).zipIdx.map fun ti => conv ti.2 ti.1.1) := by
  have hmem : ∀ l ∈ dataLines comments skiprows maxRows s, '\x00' ∉ l := by
    intro l hl
    rw [← iterateFile_eq hc] at hl
    have h1 : ∀ (ls : List (List Char)) (m : ℤ), l ∈ fileLoop comments ls m → l ∈ ls := by
      intro ls
      induction ls with
      | nil => intro m h; simp [fileLoop] at h
      | cons a ls ih =>
        intro m h
        unfold fileLoop at h
        split at h
        · simp at h
        · split at h
          · rcases List.mem_cons.1 h with rfl | h
            · simp
            · exact List.mem_cons_of_mem _ (ih _ h)
          · exact List.mem_cons_of_mem _ (ih _ h)
    exact nul_getlines h0 _ (List.mem_of_mem_drop (h1 _ _ hl))
  have hsel : ∀ l ∈ dataLines comments skiprows maxRows s, iterateLine delimiter usecols l =
      selectFields usecols (nonEmptyFields delimiter l) := fun l hl => iterateLine_eq (hmem l hl) hu
  rw [C62_loadtxt_tuples]
  simp only
  rw [iterateFile_eq hc, if_pos (fun l hl => by rw [hsel l hl]; exact hk l hl)]
  congr 1
  rw [List.filter_eq_self.2 (by
    intro l _
    unfold tupleRowPasses
    rw [List.all_eq_true]
    intro ti _
    rfl)]
  apply List.map_congr_left
  intro l hl
  rw [hsel l hl]
  rfl

/-- Values of a matrix row: converters are keyed by the position among the USED columns. -/
def matrixRow (toNum : List Char → α) (d : Dicts α) (sel : List (List Char × ℤ)) : List α :=
  sel.zipIdx.map fun ti => fieldValue toNum d (ti.2 : ℤ) ti.1.1

/-- C62, all values of the data lines in one vector, without filters. -/
theorem loadtxtToVector_eq (toNum : List Char → α) (d : Dicts α) (hd : d.filters = []) (o : LoadOpts)
    (file : Option (List Char)) (n : ℕ) :
    let sel := iterateLine o.delimiter o.usecols
    let lines := iterateFile file o.comments o.skiprows o.maxRows
    lines ≠ [] → (∀ l ∈ lines, (sel l).length = n) →
    loadtxtToVector toNum d o file = .ok ((lines.map fun l => matrixRow toNum d (sel l)).flatten, n) := by
  intro sel lines hne hk
  have hpush : ∀ l, pushString toNum d o.delimiter o.usecols l =
      (matrixRow toNum d (sel l), (sel l).length) := by
    intro l
    unfold pushString matrixRow
    simp only
    congr 1
    rw [← List.filterMap_eq_map]
    apply List.filterMap_congr
    intro ti hti
    rw [convertTok_eq]
    · simp [fieldPasses, hd]
    · have hm : ti.1 ∈ sel l := (List.mem_zipIdx hti).2.2 ▸ List.getElem_mem _
      exact nul_iterateLine _ hm
  unfold loadtxtToVector
  have key : ∀ (ls : List (List Char)) (r : List α), (∀ l ∈ ls, (sel l).length = n) →
      ls.foldlM (vecStep toNum d o) (r, some n) =
        Res.ok (r ++ (ls.map fun l => matrixRow toNum d (sel l)).flatten, some n) := by
    intro ls
    induction ls with
    | nil => intro r _; simp
    | cons l ls ih =>
      intro r h
      have hstep : vecStep toNum d o (r, some n) l = .ok (r ++ matrixRow toNum d (sel l), some n) := by
        unfold vecStep
        simp only [hpush l, h l (by simp), if_true]
      rw [List.foldlM_cons, hstep, Res.bind_ok, ih _ fun l hl => h l (by simp [hl])]
      simp
  obtain ⟨l, ls, hl⟩ := List.exists_cons_of_ne_nil hne
  have hl' : iterateFile file o.comments o.skiprows o.maxRows = l :: ls := hl
  have hstep : vecStep toNum d o ([], none) l = .ok (matrixRow toNum d (sel l), some n) := by
    unfold vecStep
    simp only [hpush l, hk l (by rw [hl]; simp), List.nil_append]
  rw [hl', List.foldlM_cons, hstep, Res.bind_ok, key ls _ fun x hx => hk x (by rw [hl]; simp [hx])]
  simp [hl]

/-- C62, `loadtxt` to a matrix, without filters: if there is at least one data line and all have the same
positive number of selected fields, row `i` of the matrix is the values of the `i`-th data line. -/
theorem C62_loadtxt_matrix (toNum : List Char → α) (d : Dicts α) (hd : d.filters = []) (o : LoadOpts)
    (file : Option (List Char)) (n : ℕ) (hn : 0 < n) :
    let sel := iterateLine o.delimiter o.usecols
    let lines := iterateFile file o.comments o.skiprows o.maxRows
    lines ≠ [] → (∀ l ∈ lines, (sel l).length = n) →
    loadtxtMatrix toNum d o file = .ok (lines.map fun l => matrixRow toNum d (sel l)) := by
  intro sel lines hne hk
  have hvec : loadtxtToVector toNum d o file =
      .ok ((lines.map fun l => matrixRow toNum d (sel l)).flatten, n) := loadtxtToVector_eq toNum d hd o file n hne hk
  unfold loadtxtMatrix
  rw [hvec]
  simp only [Res.bind_ok]
  rw [if_neg (by omega), chunks_flatten hn]
  · rfl
  · intro r hr
    obtain ⟨l, hl, rfl⟩ := List.mem_map.1 hr
    unfold matrixRow
    simp [hk l hl]

/-- Satisfiable. -/
example : loadtxtMatrix id {} { usecols := [0, 2] } (some "1 2 3\n# c\n4 5 6\n".toList) =
    .ok [["1".toList, "3".toList], ["4".toList, "6".toList]] := by decide

/-- C62 is false of the code: a blank line in (or a missing or empty) matrix file is undefined behaviour;
a filter on matrix entries removes single values, so that the rows are misaligned or cut; converters are
looked up by the position among the used columns for matrices, by the position in the file for tuples. -/
theorem C62_matrix_pitfalls (toNum : List Char → α) (d : Dicts α) (o : LoadOpts) :
    loadtxtMatrix toNum d o none = .ub ∧ loadtxtMatrix toNum d o (some []) = .ub ∧
    loadtxtMatrix id {} {} (some "1 2\n\n3 4\n".toList) = .ub ∧
    loadtxtMatrix id { filters := [(0, fun v => v ≠ "3".toList)] } {} (some "1 2\n3 4\n5 6\n".toList) =
      .ok [["1".toList, "2".toList], ["4".toList, "5".toList]] ∧
    loadtxtMatrix id { converters := [(0, fun _ => "c".toList)] } { usecols := [1] } (some "1 2\n".toList) =
      .ok [["c".toList]] ∧
    loadtxtTuples (fun _ => id) 1 { converters := [(0, fun _ => "c".toList)] } { usecols := [1] }
      (some "1 2\n".toList) = .ok [["2".toList]] := by
  refine ⟨rfl, ?_, by decide, by decide, by decide, by decide⟩
  have : (getlines '\n' []).drop o.skiprows.toNat = [] := by simp [getlines]
  unfold loadtxtMatrix loadtxtToVector iterateFile
  simp only [this, fileLoop]
  rfl

/-- C62, `TxtLoader::usecols(vector)`: any list of distinct non-negative column numbers, in any order, is
accepted when its length fits, and the fields selected are those whose number is in the list. -/
theorem C62_loader_usecols {ntypes : ℕ} {l : List ℤ} (o : LoadOpts) (h1 : l.Nodup) (h2 : ∀ x ∈ l, 0 ≤ x)
    (h3 : ntypes = 1 ∨ 1 < ntypes ∧ l.length = ntypes) (h4 : l ≠ []) {line : List Char} (h0 : '\x00' ∉ line) :
    ∃ o', o.exec ntypes (.usecolsVec l) = .ok o' ∧
      iterateLine o'.delimiter o'.usecols line =
        selectFields l (nonEmptyFields o.delimiter line) := by
  have hreq : ((decide (1 < ntypes) && l.length == ntypes) || ntypes == 1) = true := by
    rcases h3 with h | ⟨h, h'⟩
    · simp [h]
    · simp [h, h']
  have hex : o.exec ntypes (.usecolsVec l) = .ok { o with usecols := l.mergeSort } := by
    show (do
      require ((decide (1 < ntypes) && l.length == ntypes) || ntypes == 1)
      pure { o with usecols := l.mergeSort } : Res LoadOpts) = _
    rw [hreq]
    rfl
  have hmem : ∀ x, x ∈ l.mergeSort ↔ x ∈ l := fun x => (List.mergeSort_perm l _).mem_iff
  have hs : (l.mergeSort).Pairwise (· < ·) := by
    have hp := List.pairwise_mergeSort (le := fun a b : ℤ => decide (a ≤ b))
      (fun a b c hab hbc => by simp only [decide_eq_true_eq] at *; omega)
      (fun a b => by simp only [Bool.or_eq_true, decide_eq_true_eq]; omega) l
    have hn : (l.mergeSort).Nodup := (List.mergeSort_perm l _).nodup_iff.2 h1
    refine (hp.and hn).imp ?_
    intro a b h
    have h' := h.1
    simp only [decide_eq_true_eq] at h'
    exact lt_of_le_of_ne h' h.2
  refine ⟨_, hex, ?_⟩
  show iterateLine o.delimiter l.mergeSort line = _
  rw [iterateLine_eq h0 ⟨hs, fun x hx => h2 x ((hmem x).1 hx)⟩]
  unfold selectFields
  apply List.filter_congr
  intro p _
  have hne : l.mergeSort ≠ [] := by
    intro e
    have := (List.mergeSort_perm l (fun a b : ℤ => decide (a ≤ b))).length_eq
    rw [e] at this
    exact h4 (List.length_eq_zero_iff.1 this.symm)
  simp [hne, h4, hmem]

/-- Satisfiable. -/
example : ([2, 0] : List ℤ).Nodup ∧ (∀ x ∈ ([2, 0] : List ℤ), 0 ≤ x) ∧
    selectFields [2, 0] (nonEmptyFields ' ' "a b c".toList) = [("a".toList, 0), ("c".toList, 2)] := by
  refine ⟨by decide, by decide, by decide⟩

/-- C62, the setters of `TxtLoader`: each changes its own option to the value given and no other. -/
theorem C62_loader_setters (ntypes : ℕ) (o : LoadOpts) (ch : Char) (n : ℤ) (l : List ℤ) :
    o.exec ntypes (.delimiter ch) = .ok ⟨o.comments, ch, o.skiprows, o.usecols, o.maxRows⟩ ∧
    o.exec ntypes (.comments ch) = .ok ⟨ch, o.delimiter, o.skiprows, o.usecols, o.maxRows⟩ ∧
    o.exec ntypes (.skiprows n) = .ok ⟨o.comments, o.delimiter, n, o.usecols, o.maxRows⟩ ∧
    o.exec ntypes (.maxRows n) = .ok ⟨o.comments, o.delimiter, o.skiprows, o.usecols, n⟩ ∧
    (∀ o', o.exec ntypes (.usecolsVec l) = .ok o' ∨ o.exec ntypes (.usecolsArgs l) = .ok o' →
      o'.comments = o.comments ∧ o'.delimiter = o.delimiter ∧ o'.skiprows = o.skiprows ∧
        o'.maxRows = o.maxRows) := by
  refine ⟨rfl, rfl, rfl, rfl, fun o' h => ?_⟩
  rcases h with h | h
  · unfold LoadOpts.exec at h
    simp only [] at h
    cases hb : (((decide (1 < ntypes) && l.length == ntypes) || ntypes == 1)) with
    | false => rw [hb] at h; cases h
    | true => rw [hb] at h; cases h; exact ⟨rfl, rfl, rfl, rfl⟩
  · cases h; exact ⟨rfl, rfl, rfl, rfl⟩

/-- The value last given by a call that `f` recognises, or `init` if there was none. -/
def lastOpt {T : Type} (f : LoaderOp → Option T) (init : T) (ops : List LoaderOp) : T :=
  ((ops.filterMap f).getLast?).getD init

/-- The `skiprows` a call sets. -/
def LoaderOp.asSkip : LoaderOp → Option ℤ
  | .skiprows n => some n
  | _ => none

/-- The `max_rows` a call sets. -/
def LoaderOp.asMax : LoaderOp → Option ℤ
  | .maxRows n => some n
  | _ => none

/-- The delimiter a call sets. -/
def LoaderOp.asDelim : LoaderOp → Option Char
  | .delimiter n => some n
  | _ => none

/-- The comment character a call sets. -/
def LoaderOp.asComments : LoaderOp → Option Char
  | .comments n => some n
  | _ => none

theorem lastOpt_cons {T : Type} (f : LoaderOp → Option T) (init : T) (op : LoaderOp) (ops : List LoaderOp) :
    lastOpt f init (op :: ops) = lastOpt f ((f op).getD init) ops := by
  unfold lastOpt
  cases h : f op with
  | none => simp [h]
  | some v =>
    simp only [List.filterMap_cons, h, Option.getD_some]
    cases hl : ops.filterMap f with
    | nil => simp
    | cons a l => simp [List.getLast?_cons]

/-- C62: after any history of setter calls of a `TxtLoader`, `skiprows`, `max_rows`, the delimiter and
the comment character are those last set. -/
theorem C62_loader_last_set (ntypes : ℕ) (ops : List LoaderOp) (o o' : LoadOpts)
    (h : ops.foldlM (LoadOpts.exec ntypes) o = .ok o') :
    o'.skiprows = lastOpt LoaderOp.asSkip o.skiprows ops ∧
    o'.maxRows = lastOpt LoaderOp.asMax o.maxRows ops ∧
    o'.delimiter = lastOpt LoaderOp.asDelim o.delimiter ops ∧
    o'.comments = lastOpt LoaderOp.asComments o.comments ops := by
  induction ops generalizing o with
  | nil => cases h; exact ⟨rfl, rfl, rfl, rfl⟩
  | cons op ops ih =>
    rw [List.foldlM_cons] at h
    cases h1 : o.exec ntypes op with
    | ub => rw [h1] at h; cases h
    | ok o1 =>
      rw [h1] at h
      obtain ⟨i1, i2, i3, i4⟩ := ih o1 h
      have hs := fun ch n l => C62_loader_setters ntypes o ch n l
      have key : o1.skiprows = op.asSkip.getD o.skiprows ∧ o1.maxRows = op.asMax.getD o.maxRows ∧
          o1.delimiter = op.asDelim.getD o.delimiter ∧ o1.comments = op.asComments.getD o.comments := by
        cases op with
        | delimiter ch => cases h1; exact ⟨rfl, rfl, rfl, rfl⟩
        | skiprows ch => cases h1; exact ⟨rfl, rfl, rfl, rfl⟩
        | comments ch => cases h1; exact ⟨rfl, rfl, rfl, rfl⟩
        | maxRows ch => cases h1; exact ⟨rfl, rfl, rfl, rfl⟩
        | usecolsVec l =>
          obtain ⟨a, b, c, d⟩ := (hs ' ' 0 l).2.2.2.2 o1 (Or.inl h1)
          exact ⟨c, d, b, a⟩
        | usecolsArgs l =>
          obtain ⟨a, b, c, d⟩ := (hs ' ' 0 l).2.2.2.2 o1 (Or.inr h1)
          exact ⟨c, d, b, a⟩
      obtain ⟨k1, k2, k3, k4⟩ := key
      rw [lastOpt_cons, lastOpt_cons, lastOpt_cons, lastOpt_cons, ← k1, ← k2, ← k3, ← k4]
      exact ⟨i1, i2, i3, i4⟩

/-- A concrete history. -/
example : ∃ o', [LoaderOp.skiprows 1, .delimiter ',', .skiprows 3].foldlM (LoadOpts.exec 2) {} = .ok o' ∧
    o'.skiprows = 3 ∧ o'.delimiter = ',' := ⟨_, rfl, rfl, rfl⟩

/-- C62 is false of the code for the other overload: setting the columns twice with
`usecols(0, 1)` appends, after which only the first column is read. -/
theorem C62_usecols_twice :
    ∃ o o', LoadOpts.exec 1 {} (.usecolsArgs [0, 1]) = .ok o ∧ o.exec 1 (.usecolsArgs [0, 1]) = .ok o' ∧
      iterateLine ' ' o.usecols "a b".toList = [("a".toList, 0), ("b".toList, 1)] ∧
      iterateLine ' ' o'.usecols "a b".toList = [("a".toList, 0)] := by
  refine ⟨_, _, rfl, rfl, ?_, ?_⟩
  · show iterateLine ' ' (([] ++ [0, 1] : List ℤ).mergeSort) _ = _
    have : (([] ++ [0, 1] : List ℤ).mergeSort) = [0, 1] := by simp [List.mergeSort]
    rw [this]; decide
  · show iterateLine ' ' ((([] ++ [0, 1] : List ℤ).mergeSort ++ [0, 1]).mergeSort) _ = _
    have : ((([] ++ [0, 1] : List ℤ).mergeSort ++ [0, 1]).mergeSort) = [0, 0, 1, 1] := by
      simp [List.mergeSort]
    rw [this]; decide

/-- C62: `fromstring` of a `std::string` ignores the requested data type: whatever `ty`, it converts
every field to `double`. -/
theorem C62_fromstring_string_ignores_type {Ty : Type} (toNum : Ty → List Char → α) (ty double : Ty)
    (d : Dicts α) (sep : Char) (str : List Char) :
    fromstring toNum ty double true d sep str = fromstring toNum double double false d sep str := rfl

/-- C62, complex numbers: a real number followed by anything but `+` (such as `1-2j`, or `1` alone) is
read with an uninitialised imaginary part; `a+b…` is read as `(a, b)`. -/
theorem C62_complex_fields {K : Type} (lf : List Char → Option (K × List Char)) (s rest : List Char) (x : K)
    (h : lf s = some (x, rest)) :
    ((∀ t, rest ≠ '+' :: t) → toComplex lf s = .ub) ∧
    (∀ t y u, rest = '+' :: t → lf t = some (y, u) → toComplex lf s = .ok (some (x, y))) := by
  refine ⟨fun hn => ?_, fun t y u ht hl => ?_⟩
  · unfold toComplex
    rw [h]
    split
    · rename_i e; cases e
    · rename_i e
      injection e with e; injection e with e1 e2
      exact absurd e2 (hn _)
    · rfl
  · subst ht
    unfold toComplex
    rw [h]
    simp [hl]

/-! ## C63 -/

/-- Row `i` of a table given by its columns. -/
def tableRow (cols : List (List (List Char))) (i : ℕ) : List (List Char) := cols.map fun c => c.getD i []

/-- The contents `savetxt` writes, as lines. -/
theorem savetxtTuple_lines {delim : Char} {cols : List (List (List Char))} {m : ℕ} (hne : cols ≠ [])
    (hm : ∀ c ∈ cols, c.length = m) :
    savetxtTuple delim '\n' cols =
      .ok (((List.range m).map fun i : ℕ => joinCells delim (tableRow cols i)).flatMap fun l => l ++ ['\n']) := by
  obtain ⟨c0, cs, rfl⟩ := List.exists_cons_of_ne_nil hne
  have h0 := hm c0 (by simp)
  have hreq : ((c0 :: cs).all fun c => c.length == c0.length) = true := by
    rw [List.all_eq_true]
    intro c hc
    simp [hm c hc, h0]
  unfold savetxtTuple
  simp only
  rw [hreq]
  simp only [require_true, Res.bind_ok, Res.pure_eq]
  congr 1
  rw [h0, List.flatMap_map]
  congr 1
  funext i
  exact savetxtRow_eq _ _ _ (by simp)

/-- C63, one written line is read back as its cells. -/
theorem select_joinCells {delim : Char} {cells : List (List Char)} (hne : cells ≠ [])
    (hg : ∀ x ∈ cells, GoodCell delim x) :
    selectFields [] (nonEmptyFields delim (joinCells delim cells)) =
      cells.zipIdx.map fun p => (p.1, (p.2 : ℤ)) := by
  unfold selectFields nonEmptyFields lineFields
  rw [splitOn_joinCells cells hne fun x hx => (hg x hx).2.1]
  rw [List.filter_eq_self.2 (fun p _ => by simp)]
  rw [List.filter_eq_self.2 (fun p hp => by simpa using (hg p hp).1)]

/-- C63: a table of at least one column, whose cells are not empty and contain neither the delimiter nor
newline nor NUL, and none of whose first cells starts with the comment character, is written by
`savetxt` (newline `'\n'`) and read back by `loadtxt` with the same delimiter exactly: the same rows in
the same order, each cell converted by the type of its column. -/
theorem C63_roundtrip {delim comments : Char} {cols : List (List (List Char))} {m : ℕ} (hne : cols ≠ [])
    (hm : ∀ c ∈ cols, c.length = m) (hd : delim ≠ '\n') (hd0 : delim ≠ '\x00') (hc0 : comments ≠ '\x00')
    (hg : ∀ c ∈ cols, ∀ x ∈ c, GoodCell delim x)
    (hcom : ∀ x ∈ cols.head hne, x.head? ≠ some comments) (conv : ℕ → List Char → α) :
    ∃ contents, savetxtTuple delim '\n' cols = .ok contents ∧
      loadtxtTuples conv cols.length {} { comments := comments, delimiter := delim } (some contents) =
        .ok ((List.range m).map fun i : ℕ => (tableRow cols i).zipIdx.map fun cj => conv cj.2 cj.1) := by
  refine ⟨_, savetxtTuple_lines hne hm, ?_⟩
  have hcell : ∀ i < m, ∀ x ∈ tableRow cols i, GoodCell delim x := by
    intro i hi x hx
    obtain ⟨c, hc, rfl⟩ := List.mem_map.1 hx
    have hl := hm c hc
    rw [List.getD_eq_getElem _ _ (by omega)]
    exact hg c hc _ (List.getElem_mem _)
  have hrne : ∀ i, tableRow cols i ≠ [] := fun i => by simpa [tableRow] using hne
  have hnl : ∀ l ∈ (List.range m).map fun i : ℕ => joinCells delim (tableRow cols i), '\n' ∉ l := by
    intro l hl
    obtain ⟨i, hi, rfl⟩ := List.mem_map.1 hl
    exact notMem_joinCells hd.symm _ fun x hx => (hcell i (List.mem_range.1 hi) x hx).2.2.1
  have hnul : ∀ l ∈ (List.range m).map fun i : ℕ => joinCells delim (tableRow cols i), '\x00' ∉ l := by
    intro l hl
    obtain ⟨i, hi, rfl⟩ := List.mem_map.1 hl
    exact notMem_joinCells hd0.symm _ fun x hx => (hcell i (List.mem_range.1 hi) x hx).2.2.2
  have hhead : ∀ l ∈ (List.range m).map fun i : ℕ => joinCells delim (tableRow cols i),
      l.head? ≠ some comments := by
    intro l hl
    obtain ⟨i, hi, rfl⟩ := List.mem_map.1 hl
    have hi' := List.mem_range.1 hi
    obtain ⟨c0, cs, rfl⟩ := List.exists_cons_of_ne_nil hne
    have hl0 := hm c0 (by simp)
    have hmem0 : c0.getD i [] ∈ c0 := by
      rw [List.getD_eq_getElem _ _ (by omega)]
      exact List.getElem_mem _
    show (joinCells delim (c0.getD i [] :: tableRow cs i)).head? ≠ _
    rw [head_joinCells _ _ (hg c0 (by simp) _ hmem0).1]
    exact hcom _ (by simpa using hmem0)
  have hdl : dataLines comments 0 (-1) (((List.range m).map fun i : ℕ =>
      joinCells delim (tableRow cols i)).flatMap fun l => l ++ ['\n']) =
      (List.range m).map fun i : ℕ => joinCells delim (tableRow cols i) := by
    unfold dataLines
    rw [fileLines_append _ hnl]
    simp only
    rw [if_pos (by omega)]
    show List.filter _ (List.drop 0 _) = _
    rw [List.drop_zero, List.filter_eq_self.2]
    intro l hl
    simpa using hhead l hl
  have hfile0 : '\x00' ∉ ((List.range m).map fun i : ℕ =>
      joinCells delim (tableRow cols i)).flatMap fun l => l ++ ['\n'] := by
    intro h
    obtain ⟨l, hl, h'⟩ := List.mem_flatMap.1 h
    rcases List.mem_append.1 h' with h' | h'
    · exact hnul l hl h'
    · exact absurd h' (by decide)
  have hgc : GoodCols [] := ⟨by simp, by simp⟩
  have hsel : ∀ i < m, selectFields [] (nonEmptyFields delim (joinCells delim (tableRow cols i))) =
      (tableRow cols i).zipIdx.map fun p => (p.1, (p.2 : ℤ)) := fun i hi =>
    select_joinCells (hrne i) (hcell i hi)
  rw [C62_loadtxt_tuples_plain hc0 hgc conv cols.length delim 0 (-1) _ hfile0 (by
    rw [hdl]
    intro l hl
    obtain ⟨i, hi, rfl⟩ := List.mem_map.1 hl
    rw [hsel i (List.mem_range.1 hi)]
    simp [tableRow]), hdl, List.map_map]
  congr 1
  apply List.map_congr_left
  intro i hi
  simp only [Function.comp]
  rw [hsel i (List.mem_range.1 hi)]
  apply List.ext_getElem
  · simp
  · intro j h1 h2
    simp

/-- Satisfiable: a 2 by 2 table. -/
example : GoodCell ',' "1.5".toList ∧ GoodCell ',' "x y".toList ∧
    savetxtTuple ',' '\n' [["1.5".toList, "-2".toList], ["x y".toList, "z".toList]] =
      .ok "1.5,x y\n-2,z\n".toList ∧
    loadtxtTuples (fun _ => id) 2 {} { delimiter := ',' } (some "1.5,x y\n-2,z\n".toList) =
      .ok [["1.5".toList, "x y".toList], ["-2".toList, "z".toList]] := by
  refine ⟨by unfold GoodCell; decide, by unfold GoodCell; decide, by decide, by decide⟩

/-- C63, integers: a table of `int`s written and read back (with a delimiter and a comment character that
are neither a digit nor `-`) is the same table of numbers. -/
theorem C63_int_roundtrip {delim comments : Char} {cols : List (List ℤ)} {m : ℕ} (hne : cols ≠ [])
    (hm : ∀ c ∈ cols, c.length = m) (hd : delim ≠ '\n') (hd0 : delim ≠ '\x00') (hc0 : comments ≠ '\x00')
    (hdd : digitVal delim = none ∧ delim ≠ '-') (hcc : digitVal comments = none ∧ comments ≠ '-')
    (hr : ∀ c ∈ cols, ∀ z ∈ c, -(2 : ℤ) ^ 31 ≤ z ∧ z < 2 ^ 31) :
    ∃ contents, savetxtTuple delim '\n' (cols.map fun c => c.map printInt) = .ok contents ∧
      loadtxtTuples (fun _ => atoi) cols.length {} { comments := comments, delimiter := delim } (some contents) =
        .ok ((List.range m).map fun i : ℕ => cols.map fun c => .ok (c.getD i 0)) := by
  have hnotin : ∀ (ch : Char) (z : ℤ), digitVal ch = none → ch ≠ '-' → ch ∉ printInt z := by
    intro ch z h1 h2 hmem
    rcases mem_printInt hmem with h | ⟨d, hd, rfl⟩
    · exact h2 h
    · rw [digitVal_ofNat hd] at h1
      cases h1
  have hgood : ∀ z, GoodCell delim (printInt z) := fun z =>
    ⟨printInt_ne_nil z, hnotin _ z hdd.1 hdd.2, hnotin _ z (by decide) (by decide),
      hnotin _ z (by decide) (by decide)⟩
  have hne' : (cols.map fun c => c.map printInt) ≠ [] := by simpa using hne
  obtain ⟨contents, hs, hl⟩ := C63_roundtrip (α := Res ℤ) (comments := comments) (m := m) hne'
    (by
      intro c hc
      obtain ⟨c', hc', rfl⟩ := List.mem_map.1 hc
      simpa using hm c' hc') hd hd0 hc0 (by
      intro c hc x hx
      obtain ⟨c', hc', rfl⟩ := List.mem_map.1 hc
      obtain ⟨z, _, rfl⟩ := List.mem_map.1 hx
      exact hgood z) (by
      intro x hx
      have hx' : ∃ z, x = printInt z := by
        obtain ⟨c0, cs, rfl⟩ := List.exists_cons_of_ne_nil hne
        simp only [List.map_cons, List.head_cons, List.mem_map] at hx
        obtain ⟨z, _, rfl⟩ := hx
        exact ⟨z, rfl⟩
      obtain ⟨z, rfl⟩ := hx'
      intro h
      exact hnotin comments z hcc.1 hcc.2 (List.mem_of_mem_head? (by rw [h]; rfl))) (fun _ => atoi)
  refine ⟨contents, hs, ?_⟩
  rw [List.length_map] at hl
  rw [hl]
  congr 1
  apply List.map_congr_left
  intro i hi
  have hi' := List.mem_range.1 hi
  apply List.ext_getElem
  · simp [tableRow]
  · intro j h1 h2
    have hj : j < cols.length := by simpa using h2
    have hlen := hm cols[j] (List.getElem_mem _)
    simp only [List.getElem_map, List.getElem_zipIdx, tableRow]
    rw [List.getD_eq_getElem _ _ (by simp; omega), List.getD_eq_getElem _ _ (by omega), List.getElem_map,
      atoi_printInt, if_pos (hr _ (List.getElem_mem _) _ (List.getElem_mem _))]

/-- Satisfiable. -/
example : savetxtTuple ' ' '\n' [[printInt 7, printInt (-120)], [printInt 0, printInt 2147483647]] =
    .ok "7 0\n-120 2147483647\n".toList := by
  simp [savetxtTuple, printInt, printNat, savetxtRow, List.range, List.range.loop]

/-- C63 is false of the code outside the range of `int`: larger (for example 64 bit) integers are written
in full but reading them is undefined behaviour. -/
theorem C63_long_integers (z : ℤ) (h : z < -(2 : ℤ) ^ 31 ∨ 2 ^ 31 ≤ z) : atoi (printInt z) = .ub := by
  rw [atoi_printInt, if_neg (by omega)]

/-- C63 is false of the code for the remaining tables: a row with an empty cell is undefined behaviour to
read; a row whose first cell starts with the comment character is lost; with another newline character
the rows are merged. -/
theorem C63_limits :
    savetxtTuple ' ' '\n' [["a".toList], [[]]] = .ok "a \n".toList ∧
    loadtxtTuples (fun _ => id) 2 {} {} (some "a \n".toList) = .ub ∧
    savetxtTuple ' ' '\n' [["#a".toList], ["b".toList]] = .ok "#a b\n".toList ∧
    loadtxtTuples (fun _ => id) 2 {} {} (some "#a b\n".toList) = .ok [] ∧
    savetxtTuple ' ' ';' [["a".toList, "c".toList], ["b".toList, "d".toList]] = .ok "a b;c d;".toList ∧
    loadtxtTuples (fun _ => id) 2 {} {} (some "a b;c d;".toList) = .ub := by
  refine ⟨by decide, by decide, by decide, by decide, by decide, by decide⟩

/-- C63, one array: `savetxt` of an array writes one element per line, and the file's lines are exactly
the printed elements. -/
theorem C63_array_lines (X : List (List Char)) (h : ∀ x ∈ X, '\n' ∉ x) :
    fileLines (savetxtArray '\n' X) = X := fileLines_append X h

end SciCpp
