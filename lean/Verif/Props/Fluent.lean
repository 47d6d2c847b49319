import Verif.Model.Fluent
import Verif.Props.FloatText
import Verif.Props.Spectral
/-
  C104: chains of configuration calls.  C105: `TxtSaver` and `TxtLoader`.
-/
namespace SciCpp

namespace Spec

variable {S O : Type}

/-- The meaning users expect of `x.s1(..).s2(..)...;`: all settings are applied to `x`. -/
def expectedStep (exec : S → O → Res S) (init : S) (st : ℕ → S) : CfgStmt O → Res (ℕ → S)
  | .call x ops => (fun s => Function.update st x s) <$> ops.foldlM exec (st x)
  | .assign y x ops => (fun s => Function.update (Function.update st x s) y s) <$> ops.foldlM exec (st x)
  | .fresh y ops => (fun s => Function.update st y s) <$> ops.foldlM exec init

/-- Programs in the style for which copies and references make no difference: at most one setter per call on a named
object, unless the result is assigned back to it. -/
def OneByOne : CfgStmt O → Prop
  | .call _ ops => ops.length ≤ 1
  | .assign y x ops => ops.length ≤ 1 ∨ y = x
  | .fresh _ _ => True

end Spec

open Spec

section Chain

variable {S O : Type} (exec : S → O → Res S)

theorem chainCall_cons (s : S) (o : O) (os : List O) :
    chainCall exec s (o :: os) = exec s o >>= fun s1 => os.foldlM exec s1 >>= fun v => .ok (s1, v) := rfl

/-- C104: the value of a chain of setters is the object with all settings applied in order; the object on which it is
called is changed by the first setter only. -/
theorem C104_chain (s : S) (o : O) (os : List O) (r : S × S) :
    chainCall exec s (o :: os) = .ok r ↔ exec s o = .ok r.1 ∧ (o :: os).foldlM exec s = .ok r.2 := by
  rw [List.foldlM_cons, chainCall_cons]
  cases h1 : exec s o with
  | ub => simp
  | ok s1 =>
    simp only [Res.bind_ok]
    cases h2 : os.foldlM exec s1 with
    | ub => simp
    | ok v =>
      simp only [Res.bind_ok, Res.ok.injEq]
      exact Prod.ext_iff

theorem chainCall_snd (s : S) (ops : List O) :
    (fun r : S × S => r.2) <$> chainCall exec s ops = ops.foldlM exec s := by
  cases ops with
  | nil => rfl
  | cons o os =>
    rw [List.foldlM_cons, chainCall_cons]
    cases exec s o with
    | ub => rfl
    | ok s1 =>
      simp only [Res.bind_ok]
      cases os.foldlM exec s1 <;> rfl

theorem chainCall_short (s : S) (ops : List O) (h : ops.length ≤ 1) :
    chainCall exec s ops = (fun v => (v, v)) <$> ops.foldlM exec s := by
  match ops, h with
  | [], _ => rfl
  | [o], _ =>
    show (exec s o >>= _) = _
    rw [List.foldlM_cons]
    cases exec s o <;> rfl
  | _ :: _ :: _, h => simp at h

/-- C104 (partial): programs that call at most one setter per statement on a named object, or assign the result back,
or configure a temporary by a chain of any length, leave every object configured as expected, and the other
objects as they were.  Missing: longer chains on named objects, for which this is false (`C104_chain_false`). -/
theorem C104_programs_partial (init : S) (p : List (CfgStmt O)) (hp : ∀ c ∈ p, OneByOne c) (st : ℕ → S) :
    cfgRun exec init st p = p.foldlM (expectedStep exec init) st := by
  unfold cfgRun
  have step : ∀ c ∈ p, ∀ st, cfgStep exec init st c = expectedStep exec init st c := by
    intro c hc st
    have h1 := hp c hc
    cases c with
    | call x ops =>
      unfold cfgStep expectedStep
      simp only
      rw [chainCall_short exec _ _ h1]
      cases ops.foldlM exec (st x) <;> rfl
    | assign y x ops =>
      unfold cfgStep expectedStep
      simp only
      rcases h1 with h1 | rfl
      · rw [chainCall_short exec _ _ h1]
        cases ops.foldlM exec (st x) <;> rfl
      · rw [← chainCall_snd]
        cases chainCall exec (st y) ops with
        | ub => rfl
        | ok r =>
          show Res.ok _ = Res.ok _
          congr 1
          show Function.update (Function.update st y r.1) y r.2 = Function.update (Function.update st y r.2) y r.2
          rw [Function.update_idem, Function.update_idem]
    | fresh y ops =>
      unfold cfgStep expectedStep
      simp only
      rw [← chainCall_snd]
      cases chainCall exec init ops <;> rfl
  induction p generalizing st with
  | nil => rfl
  | cons c p ih =>
    rw [List.foldlM_cons, List.foldlM_cons, step c (by simp)]
    congr 1
    funext s
    exact ih (fun d hd => hp d (by simp [hd])) s (fun d hd => step d (by simp [hd]))

/-- C104: objects are independent: a statement changes no object but the ones it names. -/
theorem C104_independent (init : S) (st st' : ℕ → S) (c : CfgStmt O) (h : cfgStep exec init st c = .ok st') (z : ℕ)
    (hz : match c with
      | .call x _ => z ≠ x
      | .assign y x _ => z ≠ x ∧ z ≠ y
      | .fresh y _ => z ≠ y) : st' z = st z := by
  cases c with
  | call x ops =>
    have h' : (chainCall exec (st x) ops >>= fun r => .ok (Function.update st x r.1)) = .ok st' := h
    cases hc : chainCall exec (st x) ops with
    | ub => rw [hc] at h'; cases h'
    | ok r => rw [hc] at h'; cases h'; exact Function.update_of_ne hz _ _
  | assign y x ops =>
    have h' : (chainCall exec (st x) ops >>= fun r =>
        .ok (Function.update (Function.update st x r.1) y r.2)) = .ok st' := h
    cases hc : chainCall exec (st x) ops with
    | ub => rw [hc] at h'; cases h'
    | ok r =>
      rw [hc] at h'; cases h'
      rw [Function.update_of_ne hz.2, Function.update_of_ne hz.1]
  | fresh y ops =>
    have h' : (chainCall exec init ops >>= fun r => .ok (Function.update st y r.2)) = .ok st' := h
    cases hc : chainCall exec init ops with
    | ub => rw [hc] at h'; cases h'
    | ok r => rw [hc] at h'; cases h'; exact Function.update_of_ne hz _ _

end Chain

/-- C104 is false of the code: after `TxtLoader<A, B> l; l.delimiter(',').skiprows(1);` the loader has the delimiter but
still reads the first line: for a file with a header the header is returned as data, whereas the same chain on a
temporary skips it. -/
theorem C104_chain_false :
    let ops : List (LoaderCall (List Char)) := [.opt (.delimiter ','), .opt (.skiprows 1)]
    let file := some "a,b\n1,2\n".toList
    ∃ named temp : Loader (List Char),
      chainCall (Loader.exec 2) {} ops = .ok (named, temp) ∧
      named.load (fun _ => id) [] 2 true file = .ok [["a".toList, "b".toList], ["1".toList, "2".toList]] ∧
      temp.load (fun _ => id) [] 2 true file = .ok [["1".toList, "2".toList]] := by
  refine ⟨_, _, rfl, by decide, by decide⟩

/-- C104 is false of `Spectrum` too: `s.fs(48000).window(w);` on a named object sets the sampling frequency but not the
window. -/
theorem C104_spectrum_false (w : List ℝ) (c1 v : SpecCfg) (hw : w ≠ SpecCfg.init.window)
    (h : chainCall SpecCfg.set SpecCfg.init [.fs 48000, .window w] = .ok (c1, v)) :
    c1.fs = 48000 ∧ c1.window = SpecCfg.init.window ∧ v.window = w ∧ c1.window ≠ v.window := by
  have h1 : SpecCfg.set SpecCfg.init (.fs 48000) = .ok (SpecCfg.init.setFs 48000) := rfl
  obtain ⟨a, b⟩ := (C104_chain _ _ _ _ _).1 h
  rw [h1] at a
  have hc1 : c1 = SpecCfg.init.setFs 48000 := (Res.ok.inj a).symm
  rw [List.foldlM_cons, h1, Res.bind_ok, List.foldlM_cons] at b
  have hv : v.window = w := by
    have key : ∀ c c' : SpecCfg, c.set (.window w) = .ok c' → c'.window = w := by
      intro c c' hc
      unfold SpecCfg.set SpecCfg.exec SpecCfg.setWindow SpecCfg.setParameters at hc
      simp only [Res.pure_eq] at hc
      generalize decide ((if c.useDflt = true then Int.tdiv (w.length : ℤ) 2 else c.noverlap) ≤ (w.length : ℤ)) = d at hc
      cases d
      · cases hc
      · cases hc; rfl
    cases hs : SpecCfg.set (SpecCfg.init.setFs 48000) (.window w) with
    | ub => rw [hs] at b; cases b
    | ok c' =>
      rw [hs] at b
      have : c' = v := Res.ok.inj b
      rw [← this]
      exact key _ _ hs
  subst hc1
  refine ⟨rfl, rfl, hv, ?_⟩
  rw [hv]
  exact fun e => hw e.symm

/-! ## C105 -/

section Loader

variable {α : Type}

namespace Spec

/-- The value last given by a call that `f` recognises, or `init` if there was none. -/
def lastGiven {A T : Type} (f : A → Option T) (init : T) (ops : List A) : T :=
  ((ops.filterMap f).getLast?).getD init

end Spec

/-- The converters a call sets. -/
def LoaderCall.asConverters : LoaderCall α → Option (List (ℤ × (List Char → α)))
  | .converters c => some c
  | _ => none

/-- The filters a call sets. -/
def LoaderCall.asFilters : LoaderCall α → Option (List (ℤ × (α → Bool)))
  | .filters f => some f
  | _ => none

/-- The call on the plain options. -/
def LoaderCall.asOpt : LoaderCall α → Option LoaderOp
  | .opt o => some o
  | _ => none

theorem lastGiven_cons {A T : Type} (f : A → Option T) (init : T) (op : A) (ops : List A) :
    lastGiven f init (op :: ops) = lastGiven f ((f op).getD init) ops := by
  unfold lastGiven
  cases h : f op with
  | none => simp [h]
  | some v =>
    simp only [List.filterMap_cons, h, Option.getD_some]
    cases hl : ops.filterMap f with
    | nil => simp
    | cons a l => simp [List.getLast?_cons]

/-- C105: after any sequence of setter calls the converters and filters of a loader are those last given, and the
other options are those of the sequence of the other calls (see `C62_loader_last_set`). -/
theorem C105_last_set (ntypes : ℕ) (ops : List (LoaderCall α)) (l l' : Loader α)
    (h : ops.foldlM (Loader.exec ntypes) l = .ok l') :
    l'.dicts.converters = lastGiven LoaderCall.asConverters l.dicts.converters ops ∧
    l'.dicts.filters = lastGiven LoaderCall.asFilters l.dicts.filters ops ∧
    (ops.filterMap LoaderCall.asOpt).foldlM (LoadOpts.exec ntypes) l.opts = .ok l'.opts := by
  induction ops generalizing l with
  | nil => cases h; exact ⟨rfl, rfl, rfl⟩
  | cons op ops ih =>
    rw [List.foldlM_cons] at h
    cases h1 : l.exec ntypes op with
    | ub => rw [h1] at h; cases h
    | ok l1 =>
      rw [h1] at h
      obtain ⟨i1, i2, i3⟩ := ih l1 h
      rw [lastGiven_cons, lastGiven_cons]
      cases op with
      | opt o =>
        have h1' : (l.opts.exec ntypes o >>= fun o' => (.ok { l with opts := o' } : Res (Loader α))) = .ok l1 := h1
        cases h2 : l.opts.exec ntypes o with
        | ub => rw [h2] at h1'; cases h1'
        | ok o1 =>
          rw [h2] at h1'
          cases h1'
          refine ⟨i1, i2, ?_⟩
          simp only [List.filterMap_cons, LoaderCall.asOpt, List.foldlM_cons, h2, Res.bind_ok]
          exact i3
      | converters c => cases h1; exact ⟨i1, i2, i3⟩
      | filters f => cases h1; exact ⟨i1, i2, i3⟩

/-- C105: without `pack`, `load` returns as many columns as there are data types; each has one entry per row, and entry
`i` of column `j` is field `j` of row `i` of what `load<pack>` returns. -/
theorem C105_columns (conv : ℕ → List Char → α) (dflt : α) (k : ℕ) (hk : 2 ≤ k) (l : Loader α)
    (file : Option (List Char)) :
    (∀ rows, l.load conv dflt k true file = .ok rows → ∃ cols, l.load conv dflt k false file = .ok cols ∧
      cols.length = k ∧ (∀ j : ℕ, j < k → ∃ c, cols[j]? = some c ∧ c.length = rows.length ∧
        ∀ i : ℕ, i < rows.length → ∃ r v, rows[i]? = some r ∧ r.length = k ∧ r[j]? = some v ∧ c[i]? = some v)) ∧
    (l.load conv dflt k true file = .ub → l.load conv dflt k false file = .ub) := by
  have hk1 : k ≠ 1 := by omega
  unfold Loader.load
  rw [if_neg hk1, if_neg hk1]
  have hrows := C62_loadtxt_tuples conv k l.dicts l.opts file
  simp only at hrows
  cases ht : loadtxtTuples conv k l.dicts l.opts file with
  | ub => exact ⟨fun rows h => (by cases h), fun _ => rfl⟩
  | ok rows0 =>
    refine ⟨fun rows h => ?_, fun h => (by cases h)⟩
    cases h
    refine ⟨_, rfl, by simp, fun j hj => ⟨columnOf dflt rows0 j, by simp [hj], by simp [columnOf], fun i hi => ?_⟩⟩
    have hlen : rows0[i].length = k := by
      rw [ht] at hrows
      split_ifs at hrows with hc
      cases hrows
      have hmem := List.getElem_mem (l := (List.map (fun l_1 => tupleRow conv l.dicts (iterateLine l.opts.delimiter l.opts.usecols l_1))
        (List.filter (fun l_1 => tupleRowPasses conv l.dicts (iterateLine l.opts.delimiter l.opts.usecols l_1))
          (iterateFile file l.opts.comments l.opts.skiprows l.opts.maxRows)))) hi
      obtain ⟨ln, hln, e⟩ := List.mem_map.1 hmem
      rw [← e]
      have := hc ln (List.mem_filter.1 hln).1
      simp [tupleRow, this]
    refine ⟨rows0[i], rows0[i][j], by simp, hlen, by simp [hlen, hj], ?_⟩
    simp [columnOf, hlen, hj, hi]

/-- C105: `load_vector` returns the entries of the matrix `load` returns, row after row, and the number of columns is
the length of every row. -/
theorem C105_vector (conv : ℕ → List Char → α) (dflt : α) (k : ℕ) (l : Loader α) (hd : l.dicts.filters = [])
    (file : Option (List Char)) (n : ℕ) (hn : 0 < n)
    (hne : iterateFile file l.opts.comments l.opts.skiprows l.opts.maxRows ≠ [])
    (hk : ∀ ln ∈ iterateFile file l.opts.comments l.opts.skiprows l.opts.maxRows,
      (iterateLine l.opts.delimiter l.opts.usecols ln).length = n) :
    ∃ rows, l.load conv dflt 1 true file = .ok rows ∧ (∀ r ∈ rows, r.length = n) ∧
      l.loadVector conv k file = .ok (rows.flatten, if 1 < k then some n else none) := by
  have hm := C62_loadtxt_matrix (conv 0) l.dicts hd l.opts file n hn hne hk
  refine ⟨_, hm, ?_, ?_⟩
  · intro r hr
    obtain ⟨ln, hln, rfl⟩ := List.mem_map.1 hr
    simp [matrixRow, hk ln hln]
  · unfold Loader.loadVector
    rw [loadtxtToVector_eq (conv 0) l.dicts hd l.opts file n hne hk]
    rfl

/-- Satisfiable. -/
example : (({ opts := { delimiter := ',' } } : Loader (List Char)).load (fun _ => id) [] 2 false
    (some "1,2\n3,4\n5,6\n".toList)) =
      .ok [["1".toList, "3".toList, "5".toList], ["2".toList, "4".toList, "6".toList]] ∧
    (({ opts := { delimiter := ',' } } : Loader (List Char)).loadVector (fun _ => id) 2
      (some "1,2\n3,4\n".toList)) = .ok (["1".toList, "2".toList, "3".toList, "4".toList], some 2) := by
  constructor <;> decide

/-- C105, `int`s: at least two columns of equal length saved with a `TxtSaver` and loaded with a `TxtLoader` of the same
delimiter come back as the same columns. -/
theorem C105_roundtrip_int {delim comments : Char} {cols : List (List ℤ)} {m : ℕ} (hk : 2 ≤ cols.length)
    (hm : ∀ c ∈ cols, c.length = m) (hd : delim ≠ '\n') (hd0 : delim ≠ '\x00') (hc0 : comments ≠ '\x00')
    (hdd : digitVal delim = none ∧ delim ≠ '-') (hcc : digitVal comments = none ∧ comments ≠ '-')
    (hr : ∀ c ∈ cols, ∀ z ∈ c, -(2 : ℤ) ^ 31 ≤ z ∧ z < 2 ^ 31)
    (saver : Saver) (hs : [SaverOp.delimiter delim].foldlM Saver.exec {} = .ok saver)
    (loader : Loader (Res ℤ))
    (hl : [LoaderCall.opt (.delimiter delim), .opt (.comments comments)].foldlM (Loader.exec cols.length) {} = .ok loader) :
    ∃ contents, saver.save (cols.map fun c => c.map printInt) = .ok contents ∧
      loader.load (fun _ => atoi) .ub cols.length false (some contents) = .ok (cols.map fun c => c.map .ok) := by
  cases hs
  cases hl
  have hne : cols ≠ [] := by rintro rfl; simp at hk
  obtain ⟨contents, h1, h2⟩ := C63_int_roundtrip hne hm hd hd0 hc0 hdd hcc hr
  refine ⟨contents, h1, ?_⟩
  unfold Loader.load
  rw [if_neg (by omega)]
  have h2' : loadtxtTuples (fun _ => atoi) cols.length ({} : Dicts (Res ℤ)) ⟨comments, delim, 0, [], -1⟩ (some contents) =
      .ok ((List.range m).map fun i : ℕ => cols.map fun c => .ok (c.getD i 0)) := h2
  simp only [h2', Res.bind_ok, Bool.false_eq_true, if_false, Res.pure_eq]
  congr 1
  apply List.ext_getElem
  · simp
  · intro j hj1 hj2
    have hj : j < cols.length := by simpa using hj2
    simp only [List.getElem_map, List.getElem_range, columnOf, List.map_map]
    apply List.ext_getElem
    · simp [hm _ (List.getElem_mem hj)]
    · intro i hi1 hi2
      have hi : i < m := by simpa using hi1
      have hci : i < cols[j].length := by rw [hm _ (List.getElem_mem hj)]; exact hi
      simp [hj, hci]

/-- C105, `double`s: likewise, every number coming back as `C97_number` and `C97_reload` describe. -/
theorem C105_roundtrip_double {delim comments : Char} {cols : List (List Fl)} {m : ℕ} (hk : 2 ≤ cols.length)
    (hm : ∀ c ∈ cols, c.length = m) (hd : delim ≠ '\n') (hd0 : delim ≠ '\x00') (hc0 : comments ≠ '\x00')
    (hdd : isFloatChar delim = false) (hcc : isFloatChar comments = false)
    (saver : Saver) (hs : [SaverOp.delimiter delim].foldlM Saver.exec {} = .ok saver)
    (loader : Loader D64)
    (hl : [LoaderCall.opt (.delimiter delim), .opt (.comments comments)].foldlM (Loader.exec cols.length) {} = .ok loader) :
    ∃ contents, saver.save (cols.map fun c => c.map fmtG) = .ok contents ∧
      loader.load (fun _ => atof) .nan cols.length false (some contents) =
        .ok (cols.map fun c => c.map fun x => atof (fmtG x)) := by
  cases hs
  cases hl
  have hne : cols ≠ [] := by rintro rfl; simp at hk
  obtain ⟨contents, h1, h2⟩ := C97_table hne hm hd hd0 hc0 hdd hcc
  refine ⟨contents, h1, ?_⟩
  unfold Loader.load
  rw [if_neg (by omega)]
  have h2' : loadtxtTuples (fun _ => atof) cols.length ({} : Dicts D64) ⟨comments, delim, 0, [], -1⟩ (some contents) =
      .ok ((List.range m).map fun i : ℕ => cols.map fun c => atof (fmtG (c.getD i .nan))) := h2
  simp only [h2', Res.bind_ok, Bool.false_eq_true, if_false, Res.pure_eq]
  congr 1
  apply List.ext_getElem
  · simp
  · intro j hj1 hj2
    have hj : j < cols.length := by simpa using hj2
    simp only [List.getElem_map, List.getElem_range, columnOf, List.map_map]
    apply List.ext_getElem
    · simp [hm _ (List.getElem_mem hj)]
    · intro i hi1 hi2
      have hi : i < m := by simpa using hi1
      have hci : i < cols[j].length := by rw [hm _ (List.getElem_mem hj)]; exact hi
      simp [hj, hci]

end Loader

end SciCpp
