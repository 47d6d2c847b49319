import Verif.Spec.ArrExpr
import Verif.Proofs.Functional
/-
  Lemmas about the evaluation of expressions of arrays.
-/
namespace SciCpp.AEv
open Spec

variable {α : Type*} {E : AEnv} {c : Cont}

theorem Res.bind_eq_ok' {β γ : Type*} {x : Res β} {f : β → Res γ} {r : γ} (h : x.bind f = .ok r) :
    ∃ b, x = .ok b ∧ f b = .ok r := by
  cases x with
  | ub => exact absurd h (by rintro ⟨⟩)
  | ok b => exact ⟨b, rfl, h⟩

/-- The last step of an operator. -/
def fin (E : AEnv) (c : Cont) (t : ℕ) (op : α → α → α) (a b : AEx α) (v w : AVal α) (σ : AStore α) : Res (AVal α × AStore α) :=
  aBinary c (a.cat E) (b.cat E) (a.elt E == t) (b.elt E == t) op v w σ

theorem eval_un (t : ℕ) (op : α → α) (a : AEx α) (ord : List Bool → Bool) (σ : AStore α) :
    (AEx.un t op a).eval E c ord σ =
      (a.eval E c ord σ).bind fun p => .ok (aUnary c (a.cat E) (a.elt E == t) op p.1 p.2) := by
  show (a.eval E c ord σ).bind _ = _
  cases a.eval E c ord σ <;> rfl

theorem eval_bin_right (t : ℕ) (op : α → α → α) (a b : AEx α) (ord : List Bool → Bool) (σ : AStore α) (h : ord [] = true) :
    (AEx.bin t op a b).eval E c ord σ =
      (b.eval E c (fun p => ord (true :: p)) σ).bind fun p =>
        (a.eval E c (fun p => ord (false :: p)) p.2).bind fun q => fin E c t op a b q.1 p.1 q.2 := by
  conv_lhs => unfold AEx.eval
  rw [if_pos h]
  show (b.eval E c _ σ).bind _ = _
  cases b.eval E c (fun p => ord (true :: p)) σ with
  | ub => rfl
  | ok p =>
    show (a.eval E c _ p.2).bind _ = (a.eval E c _ p.2).bind _
    cases a.eval E c (fun p => ord (false :: p)) p.2 <;> rfl

theorem eval_bin_left (t : ℕ) (op : α → α → α) (a b : AEx α) (ord : List Bool → Bool) (σ : AStore α) (h : ord [] = false) :
    (AEx.bin t op a b).eval E c ord σ =
      (a.eval E c (fun p => ord (false :: p)) σ).bind fun p =>
        (b.eval E c (fun p => ord (true :: p)) p.2).bind fun q => fin E c t op a b p.1 q.1 q.2 := by
  conv_lhs => unfold AEx.eval
  rw [if_neg (by simp [h])]
  show (a.eval E c _ σ).bind _ = _
  cases a.eval E c (fun p => ord (false :: p)) σ with
  | ub => rfl
  | ok p =>
    show (b.eval E c _ p.2).bind _ = (b.eval E c _ p.2).bind _
    cases b.eval E c (fun p => ord (true :: p)) p.2 <;> rfl

/-- What a successful last step does. -/
theorem fin_ok {t : ℕ} {op : α → α → α} {a b : AEx α} {v w : AVal α} {σ : AStore α} {r : AVal α × AStore α}
    (h : fin E c t op a b v w σ = .ok r) :
    (v.get σ).length = (w.get σ).length ∧ r.1 = .tmp (List.zipWith op (v.get σ) (w.get σ)) ∧
      r.2 = match mapBinaryDest (a.cat E) (b.cat E) (a.elt E == t) (b.elt E == t) with
        | .first => v.put σ (movedFrom c (List.zipWith op (v.get σ) (w.get σ)))
        | .second => w.put σ (movedFrom c (List.zipWith op (v.get σ) (w.get σ)))
        | .fresh => σ := by
  have h' : (map2 op (v.get σ) (w.get σ)).bind _ = .ok r := h
  by_cases hl : (v.get σ).length = (w.get σ).length
  · rw [map2_eq _ _ _ hl] at h'
    refine ⟨hl, ?_⟩
    change (match mapBinaryDest (a.cat E) (b.cat E) (a.elt E == t) (b.elt E == t) with
      | .first => Res.ok _ | .second => Res.ok _ | .fresh => Res.ok _) = Res.ok r at h'
    revert h'
    cases mapBinaryDest (a.cat E) (b.cat E) (a.elt E == t) (b.elt E == t) <;>
      (intro h'; injection h' with h'; subst h'; exact ⟨rfl, rfl⟩)
  · rw [show map2 op (v.get σ) (w.get σ) = .ub from if_neg hl] at h'
    exact absurd h' (by rintro ⟨⟩)

theorem fin_of_eq (t : ℕ) (op : α → α → α) (a b : AEx α) (v w : AVal α) (σ : AStore α)
    (hl : (v.get σ).length = (w.get σ).length) : ∃ r, fin E c t op a b v w σ = .ok r := by
  show ∃ r, (map2 op (v.get σ) (w.get σ)).bind _ = .ok r
  rw [map2_eq _ _ _ hl]
  show ∃ r, (match mapBinaryDest (a.cat E) (b.cat E) (a.elt E == t) (b.elt E == t) with
      | .first => Res.ok _ | .second => Res.ok _ | .fresh => Res.ok _) = Res.ok r
  cases mapBinaryDest (a.cat E) (b.cat E) (a.elt E == t) (b.elt E == t) <;> exact ⟨_, rfl⟩

/-- The value of an operator is a temporary. -/
theorem un_tmp {t : ℕ} {op : α → α} {a : AEx α} {ord : List Bool → Bool} {σ : AStore α} {r : AVal α × AStore α}
    (h : (AEx.un t op a).eval E c ord σ = .ok r) : ∃ l, r.1 = .tmp l := by
  rw [eval_un] at h
  obtain ⟨p, _, h⟩ := Res.bind_eq_ok' h
  injection h with h; subst h
  exact ⟨_, rfl⟩

theorem bin_tmp {t : ℕ} {op : α → α → α} {a b : AEx α} {ord : List Bool → Bool} {σ : AStore α} {r : AVal α × AStore α}
    (h : (AEx.bin t op a b).eval E c ord σ = .ok r) : ∃ l, r.1 = .tmp l := by
  cases ho : ord [] with
  | true =>
    rw [eval_bin_right _ _ _ _ _ _ ho] at h
    obtain ⟨p, _, h⟩ := Res.bind_eq_ok' h
    obtain ⟨q, _, h⟩ := Res.bind_eq_ok' h
    exact ⟨_, (fin_ok h).2.1⟩
  | false =>
    rw [eval_bin_left _ _ _ _ _ _ ho] at h
    obtain ⟨p, _, h⟩ := Res.bind_eq_ok' h
    obtain ⟨q, _, h⟩ := Res.bind_eq_ok' h
    exact ⟨_, (fin_ok h).2.1⟩

/-- A reference is the value of a name only. -/
theorem ref_of {e : AEx α} {ord : List Bool → Bool} {σ : AStore α} {r : AVal α × AStore α}
    (h : e.eval E c ord σ = .ok r) {i : ℕ} (hr : r.1 = .ref i) : (e = .var i ∨ e = .mv i) ∧ r.2 = σ := by
  cases e with
  | var j => injection h with h; subst h; injection hr with hr; subst hr; exact ⟨.inl rfl, rfl⟩
  | mv j => injection h with h; subst h; injection hr with hr; subst hr; exact ⟨.inr rfl, rfl⟩
  | un t op a => obtain ⟨l, hl⟩ := un_tmp h; rw [hl] at hr; cases hr
  | bin t op a b => obtain ⟨l, hl⟩ := bin_tmp h; rw [hl] at hr; cases hr

theorem put_empty {σ : AStore α} {v : AVal α} {i : ℕ} (h : σ i = []) : (v.put σ []) i = [] := by
  cases v with
  | tmp l => exact h
  | ref j =>
    show Function.update σ j [] i = []
    by_cases hj : i = j
    · subst hj; rw [Function.update_self]
    · rw [Function.update_of_ne hj, h]

/-- A vector that is empty stays empty. -/
theorem un_step_empty {cat : Cat} {same : Bool} {op : α → α} {v : AVal α} {σ : AStore α} {i : ℕ} (h : σ i = []) :
    (aUnary .vec cat same op v σ).2 i = [] := by
  cases v with
  | tmp l => cases same <;> cases cat <;> exact h
  | ref j =>
    by_cases hj : i = j
    · subst hj
      cases same <;> cases cat <;>
        simp [aUnary, AVal.put, AVal.get, mapUnarySame, mapUnaryDiff, movedFrom, h]
    · have hu : ∀ l, Function.update σ j l i = [] := fun l => by rw [Function.update_of_ne hj, h]
      exact hu _

theorem fin_empty {t : ℕ} {op : α → α → α} {a b : AEx α} {v w : AVal α} {σ : AStore α} {r : AVal α × AStore α}
    (h : fin E .vec t op a b v w σ = .ok r) {i : ℕ} (hi : σ i = []) : r.2 i = [] := by
  rw [(fin_ok h).2.2]
  cases mapBinaryDest (a.cat E) (b.cat E) (a.elt E == t) (b.elt E == t) with
  | first => exact put_empty hi
  | second => exact put_empty hi
  | fresh => exact hi

theorem stays_empty {i : ℕ} : ∀ (e : AEx α) {ord : List Bool → Bool} {σ : AStore α} {r : AVal α × AStore α},
    e.eval E .vec ord σ = .ok r → σ i = [] → r.2 i = []
  | .var _, _, _, _, h, hi => by injection h with h; subst h; exact hi
  | .mv _, _, _, _, h, hi => by injection h with h; subst h; exact hi
  | .un t op a, ord, σ, r, h, hi => by
    rw [eval_un] at h
    obtain ⟨p, hp, h⟩ := Res.bind_eq_ok' h
    injection h with h; subst h
    exact un_step_empty (stays_empty a hp hi)
  | .bin t op a b, ord, σ, r, h, hi => by
    cases ho : ord [] with
    | true =>
      rw [eval_bin_right _ _ _ _ _ _ ho] at h
      obtain ⟨p, hp, h⟩ := Res.bind_eq_ok' h
      obtain ⟨q, hq, h⟩ := Res.bind_eq_ok' h
      exact fin_empty h (stays_empty a hq (stays_empty b hp hi))
    | false =>
      rw [eval_bin_left _ _ _ _ _ _ ho] at h
      obtain ⟨p, hp, h⟩ := Res.bind_eq_ok' h
      obtain ⟨q, hq, h⟩ := Res.bind_eq_ok' h
      exact fin_empty h (stays_empty b hq (stays_empty a hp hi))

/-- The value seen later. -/
theorem get_later {r : AVal α × AStore α}
    {σ' : AStore α} (hm : ∀ i, r.2 i = [] → σ' i = []) (hg : r.1.get σ' ≠ []) : r.1.get r.2 ≠ [] := by
  cases hr : r.1 with
  | tmp l => rw [hr] at hg; exact hg
  | ref i => rw [hr] at hg; exact fun hz => hg (hm i hz)

theorem aUnary_get {cat : Cat} {same : Bool} {op : α → α} {v : AVal α} {σ : AStore α} :
    (aUnary c cat same op v σ).1 = .tmp ((v.get σ).map op) := by
  cases same <;> cases cat <;> rfl

/-- A value that is not empty was computed from arrays that were not empty. -/
theorem vars_ne : ∀ (e : AEx α) {ord : List Bool → Bool} {σ : AStore α} {r : AVal α × AStore α},
    e.eval E .vec ord σ = .ok r → r.1.get r.2 ≠ [] → ∀ i ∈ aVars e, σ i ≠ []
  | .var j, _, _, _, h, hg, i, hi => by
    injection h with h; subst h
    obtain rfl : i = j := by simpa [aVars] using hi
    exact hg
  | .mv j, _, _, _, h, hg, i, hi => by
    injection h with h; subst h
    obtain rfl : i = j := by simpa [aVars] using hi
    exact hg
  | .un t op a, ord, σ, r, h, hg, i, hi => by
    rw [eval_un] at h
    obtain ⟨p, hp, h⟩ := Res.bind_eq_ok' h
    injection h with h; subst h
    rw [aUnary_get] at hg
    refine vars_ne a hp (fun hz => hg ?_) i hi
    show List.map op _ = []
    rw [hz]; rfl
  | .bin t op a b, ord, σ, r, h, hg, i, hi => by
    cases ho : ord [] with
    | true =>
      rw [eval_bin_right _ _ _ _ _ _ ho] at h
      obtain ⟨p, hp, h⟩ := Res.bind_eq_ok' h
      obtain ⟨q, hq, h⟩ := Res.bind_eq_ok' h
      obtain ⟨hl, hv, -⟩ := fin_ok h
      rw [hv] at hg
      have h1 : q.1.get q.2 ≠ [] := fun hz => hg (by show List.zipWith _ _ _ = []; rw [hz]; rfl)
      have h2 : p.1.get q.2 ≠ [] := fun hz => hg (by show List.zipWith _ _ _ = []; rw [hz]; simp)
      rcases List.mem_append.1 (show i ∈ aVars a ++ aVars b from hi) with hi | hi
      · exact fun hz => vars_ne a hq h1 i hi (stays_empty b hp hz)
      · exact vars_ne b hp (get_later (fun j hj => stays_empty a hq hj) h2) i hi
    | false =>
      rw [eval_bin_left _ _ _ _ _ _ ho] at h
      obtain ⟨p, hp, h⟩ := Res.bind_eq_ok' h
      obtain ⟨q, hq, h⟩ := Res.bind_eq_ok' h
      obtain ⟨hl, hv, -⟩ := fin_ok h
      rw [hv] at hg
      have h1 : p.1.get q.2 ≠ [] := fun hz => hg (by show List.zipWith _ _ _ = []; rw [hz]; rfl)
      have h2 : q.1.get q.2 ≠ [] := fun hz => hg (by show List.zipWith _ _ _ = []; rw [hz]; simp)
      rcases List.mem_append.1 (show i ∈ aVars a ++ aVars b from hi) with hi | hi
      · exact vars_ne a hp (get_later (fun j hj => stays_empty b hq hj) h1) i hi
      · exact fun hz => vars_ne b hq h2 i hi (stays_empty a hp hz)

/-- The storage an operator between arrays writes to, in terms of the specification. -/
theorem dest_cases (t : ℕ) (a b : AEx α) :
    (mapBinaryDest (a.cat E) (b.cat E) (a.elt E == t) (b.elt E == t) = .second ∧ (aIsRvalue b = true ∧ b.elt E = t)) ∨
    (mapBinaryDest (a.cat E) (b.cat E) (a.elt E == t) (b.elt E == t) = .first ∧ ¬(aIsRvalue b = true ∧ b.elt E = t) ∧
      (aIsRvalue a = true ∧ a.elt E = t)) ∨
    (mapBinaryDest (a.cat E) (b.cat E) (a.elt E == t) (b.elt E == t) = .fresh ∧ ¬(aIsRvalue b = true ∧ b.elt E = t) ∧
      ¬(aIsRvalue a = true ∧ a.elt E = t)) := by
  have key : ∀ x : AEx α, (x.cat E = .rvalue ∧ aIsRvalue x = true) ∨ (x.cat E ≠ .rvalue ∧ aIsRvalue x = false) := by
    intro x
    cases x with
    | var i => right; exact ⟨by simp only [AEx.cat]; split_ifs <;> simp, rfl⟩
    | mv i => exact .inl ⟨rfl, rfl⟩
    | un t op a => exact .inl ⟨rfl, rfl⟩
    | bin t op a b => exact .inl ⟨rfl, rfl⟩
  rcases key a with ⟨ca, ra⟩ | ⟨ca, ra⟩ <;> rcases key b with ⟨cb, rb⟩ | ⟨cb, rb⟩ <;>
    by_cases h1 : a.elt E = t <;> by_cases h2 : b.elt E = t <;>
    cases hca : a.cat E <;> cases hcb : b.cat E <;>
    simp_all [mapBinaryDest]

theorem put_ref (σ : AStore α) (i : ℕ) (l : List α) : (AVal.ref i).put σ l = Function.update σ i l := rfl

/-- A consumed vector is empty after the evaluation. -/
theorem consumed_empty {i : ℕ} : ∀ (e : AEx α) {ord : List Bool → Bool} {σ : AStore α} {r : AVal α × AStore α},
    e.eval E .vec ord σ = .ok r → i ∈ aConsumed E e → r.2 i = []
  | .var _, _, _, _, _, hi => by cases hi
  | .mv _, _, _, _, _, hi => by cases hi
  | .un t op (.var j), ord, σ, r, h, hi => by
    injection h with h; subst h
    simp only [aConsumed] at hi
    split_ifs at hi with hc
    · obtain rfl : i = j := by simpa using hi
      simp [aUnary, AEx.cat, AEx.elt, hc.1, hc.2, mapUnarySame, movedFrom, AVal.put]
    · cases hi
  | .un t op (.mv j), ord, σ, r, h, hi => by
    injection h with h; subst h
    simp only [aConsumed] at hi
    split_ifs at hi with hc
    · obtain rfl : i = j := by simpa using hi
      simp [aUnary, AEx.cat, AEx.elt, hc, mapUnarySame, movedFrom, AVal.put]
    · cases hi
  | .un t op (.un t' op' a), ord, σ, r, h, hi => by
    rw [eval_un] at h
    obtain ⟨p, hp, h⟩ := Res.bind_eq_ok' h
    injection h with h; subst h
    exact un_step_empty (consumed_empty _ hp hi)
  | .un t op (.bin t' op' a b), ord, σ, r, h, hi => by
    rw [eval_un] at h
    obtain ⟨p, hp, h⟩ := Res.bind_eq_ok' h
    injection h with h; subst h
    exact un_step_empty (consumed_empty _ hp hi)
  | .bin t op a b, ord, σ, r, h, hi => by
    simp only [aConsumed] at hi
    have own : ∀ {v w : AVal α} {σ' : AStore α}, fin E .vec t op a b v w σ' = .ok r →
        (∀ j, a = .mv j → v = .ref j) → (∀ j, b = .mv j → w = .ref j) →
        i ∈ (if aIsRvalue b = true ∧ b.elt E = t then aGiven b
          else if aIsRvalue a = true ∧ a.elt E = t then aGiven a else []) → r.2 i = [] := by
      intro v w σ' hf hv hw hi
      rw [(fin_ok hf).2.2]
      rcases dest_cases (E := E) t a b with ⟨hd, h2⟩ | ⟨hd, h2, h1⟩ | ⟨hd, h2, h1⟩
      · rw [hd]
        rw [if_pos h2] at hi
        cases b with
        | mv j =>
          obtain rfl : i = j := by simpa [aGiven] using hi
          rw [hw i rfl]
          show Function.update σ' i [] i = []
          rw [Function.update_self]
        | _ => cases hi
      · rw [hd]
        rw [if_neg h2, if_pos h1] at hi
        cases a with
        | mv j =>
          obtain rfl : i = j := by simpa [aGiven] using hi
          rw [hv i rfl]
          show Function.update σ' i [] i = []
          rw [Function.update_self]
        | _ => cases hi
      · rw [if_neg h2, if_neg h1] at hi
        cases hi
    have ref : ∀ {e : AEx α} {o : List Bool → Bool} {s : AStore α} {q : AVal α × AStore α}, e.eval E .vec o s = .ok q →
        ∀ j, e = .mv j → q.1 = .ref j := by
      intro e o s q hq j he
      subst he
      injection hq with hq
      rw [← hq]
    cases ho : ord [] with
    | true =>
      rw [eval_bin_right _ _ _ _ _ _ ho] at h
      obtain ⟨p, hp, h⟩ := Res.bind_eq_ok' h
      obtain ⟨q, hq, h⟩ := Res.bind_eq_ok' h
      rcases List.mem_append.1 hi with hi | hi
      · rcases List.mem_append.1 hi with hi | hi
        · exact fin_empty h (consumed_empty a hq hi)
        · exact fin_empty h (stays_empty a hq (consumed_empty b hp hi))
      · exact own h (ref hq) (ref hp) hi
    | false =>
      rw [eval_bin_left _ _ _ _ _ _ ho] at h
      obtain ⟨p, hp, h⟩ := Res.bind_eq_ok' h
      obtain ⟨q, hq, h⟩ := Res.bind_eq_ok' h
      rcases List.mem_append.1 hi with hi | hi
      · rcases List.mem_append.1 hi with hi | hi
        · exact fin_empty h (stays_empty b hq (consumed_empty a hp hi))
        · exact fin_empty h (consumed_empty b hq hi)
      · exact own h (ref hp) (ref hq) hi

theorem denot_length {σ : AStore α} {N : ℕ} : ∀ (e : AEx α), (∀ i ∈ aVars e, (σ i).length = N) → (aDenot σ e).length = N
  | .var i, h => h i (by simp [aVars])
  | .mv i, h => h i (by simp [aVars])
  | .un t op a, h => by
    show (List.map op _).length = N
    rw [List.length_map]
    exact denot_length a h
  | .bin t op a b, h => by
    show (List.zipWith op _ _).length = N
    rw [List.length_zipWith, denot_length a fun i hi => h i (List.mem_append_left _ hi),
      denot_length b fun i hi => h i (List.mem_append_right _ hi), min_self]

theorem denot_congr {σ τ : AStore α} : ∀ (e : AEx α), (∀ i ∈ aVars e, σ i = τ i) → aDenot σ e = aDenot τ e
  | .var i, h => h i (by simp [aVars])
  | .mv i, h => h i (by simp [aVars])
  | .un t op a, h => by
    show List.map op _ = List.map op _
    rw [denot_congr a h]
  | .bin t op a b, h => by
    show List.zipWith op _ _ = List.zipWith op _ _
    rw [denot_congr a fun i hi => h i (List.mem_append_left _ hi), denot_congr b fun i hi => h i (List.mem_append_right _ hi)]

/-- The last step leaves alone what the operator does not consume. -/
theorem fin_frame {t : ℕ} {op : α → α → α} {a b : AEx α} {v w : AVal α} {σ : AStore α} {r : AVal α × AStore α}
    (h : fin E c t op a b v w σ = .ok r) (hv : ∀ j, v = .ref j → a = .var j ∨ a = .mv j) (hw : ∀ j, w = .ref j → b = .var j ∨ b = .mv j)
    {i : ℕ} (hi : i ∉ (if aIsRvalue b = true ∧ b.elt E = t then aGiven b
      else if aIsRvalue a = true ∧ a.elt E = t then aGiven a else [])) : r.2 i = σ i := by
  rw [(fin_ok h).2.2]
  rcases dest_cases (E := E) t a b with ⟨hd, h2⟩ | ⟨hd, h2, h1⟩ | ⟨hd, h2, h1⟩
  · rw [hd]
    rw [if_pos h2] at hi
    cases w with
    | tmp l => rfl
    | ref j =>
      rcases hw j rfl with rfl | rfl
      · exact absurd h2.1 (by simp [aIsRvalue])
      · exact Function.update_of_ne (by simpa [aGiven] using hi) _ _
  · rw [hd]
    rw [if_neg h2, if_pos h1] at hi
    cases v with
    | tmp l => rfl
    | ref j =>
      rcases hv j rfl with rfl | rfl
      · exact absurd h1.1 (by simp [aIsRvalue])
      · exact Function.update_of_ne (by simpa [aGiven] using hi) _ _
  · rw [hd]

theorem get_after {e : AEx α} {o : List Bool → Bool} {s s' : AStore α} {q : AVal α × AStore α} (hq : e.eval E c o s = .ok q)
    (h : ∀ i ∈ aVars e, s' i = q.2 i) : q.1.get s' = q.1.get q.2 := by
  cases hr : q.1 with
  | tmp l => rfl
  | ref i =>
    refine h i ?_
    rcases (ref_of hq hr).1 with rfl | rfl <;> simp [aVars]

/-- Evaluation of a safe expression. -/
theorem safe_eval {N : ℕ} : ∀ (e : AEx α) (ord : List Bool → Bool) (σ : AStore α), aSafe E e → (∀ i ∈ aVars e, (σ i).length = N) →
    ∃ r, e.eval E c ord σ = .ok r ∧ r.1.get r.2 = aDenot σ e ∧ ∀ i, i ∉ aConsumed E e → r.2 i = σ i
  | .var i, ord, σ, _, _ => ⟨_, rfl, rfl, fun _ _ => rfl⟩
  | .mv i, ord, σ, _, _ => ⟨_, rfl, rfl, fun _ _ => rfl⟩
  | .un t op a, ord, σ, hs, hl => by
    obtain ⟨p, hp, hg, hf⟩ := safe_eval a ord σ hs hl
    rw [eval_un, hp]
    refine ⟨_, rfl, ?_, ?_⟩
    · rw [aUnary_get]
      show List.map op _ = List.map op _
      rw [hg]
    · intro i hi
      cases a with
      | var j =>
        injection hp with hp; subst hp
        simp only [aConsumed] at hi
        simp only [aUnary, AEx.cat, AEx.elt, AVal.get, AVal.put]
        by_cases hj : i = j
        · subst hj
          rw [Function.update_self]
          split_ifs at hi with hc
          · exact absurd (by simp) hi
          · by_cases h1 : E.elt i = t
            · have h2 : E.isConst i = true := by
                cases h3 : E.isConst i
                · exact absurd ⟨h3, h1⟩ hc
                · rfl
              simp [h1, h2, mapUnarySame]
            · simp [h1, mapUnaryDiff]
        · rw [Function.update_of_ne hj]
      | mv j =>
        injection hp with hp; subst hp
        simp only [aConsumed] at hi
        simp only [aUnary, AEx.cat, AEx.elt, AVal.get, AVal.put]
        by_cases hj : i = j
        · subst hj
          rw [Function.update_self]
          split_ifs at hi with hc
          · exact absurd (by simp) hi
          · simp [hc, mapUnaryDiff]
        · rw [Function.update_of_ne hj]
      | un t' op' a' =>
        obtain ⟨l, hl'⟩ := un_tmp hp
        simp only [hl', aUnary, AVal.put]
        exact hf i hi
      | bin t' op' a' b' =>
        obtain ⟨l, hl'⟩ := bin_tmp hp
        simp only [hl', aUnary, AVal.put]
        exact hf i hi
  | .bin t op a b, ord, σ, hs, hl => by
    obtain ⟨sa, sb, hab, hba⟩ := hs
    have la : ∀ i ∈ aVars a, (σ i).length = N := fun i hi => hl i (List.mem_append_left _ hi)
    have lb : ∀ i ∈ aVars b, (σ i).length = N := fun i hi => hl i (List.mem_append_right _ hi)
    have da := denot_length a la
    have db := denot_length b lb
    cases ho : ord [] with
    | true =>
      rw [eval_bin_right _ _ _ _ _ _ ho]
      obtain ⟨p, hp, gp, fp⟩ := safe_eval b (fun p => ord (true :: p)) σ sb lb
      have e1 : ∀ i ∈ aVars a, p.2 i = σ i := fun i hi => fp i fun hc => hba i hc hi
      obtain ⟨q, hq, gq, fq⟩ := safe_eval a (fun p => ord (false :: p)) p.2 sa fun i hi => by rw [e1 i hi, la i hi]
      have gq' : q.1.get q.2 = aDenot σ a := by rw [gq, denot_congr a e1]
      have gp' : p.1.get q.2 = aDenot σ b := by
        rw [get_after hp fun i hi => fq i fun hc => hab i hc hi, gp]
      obtain ⟨r, hr⟩ := fin_of_eq (E := E) (c := c) t op a b q.1 p.1 q.2 (by rw [gq', gp', da, db])
      rw [hp]
      show ∃ r, (Res.bind (a.eval E c _ p.2) _) = _ ∧ _
      rw [hq]
      refine ⟨r, hr, ?_, ?_⟩
      · rw [(fin_ok hr).2.1, gq', gp']; rfl
      · intro i hi
        simp only [aConsumed, List.mem_append, not_or] at hi
        rw [fin_frame hr (fun j hj => (ref_of hq hj).1) (fun j hj => (ref_of hp hj).1) hi.2, fq i hi.1.1, fp i hi.1.2]
    | false =>
      rw [eval_bin_left _ _ _ _ _ _ ho]
      obtain ⟨p, hp, gp, fp⟩ := safe_eval a (fun p => ord (false :: p)) σ sa la
      have e1 : ∀ i ∈ aVars b, p.2 i = σ i := fun i hi => fp i fun hc => hab i hc hi
      obtain ⟨q, hq, gq, fq⟩ := safe_eval b (fun p => ord (true :: p)) p.2 sb fun i hi => by rw [e1 i hi, lb i hi]
      have gq' : q.1.get q.2 = aDenot σ b := by rw [gq, denot_congr b e1]
      have gp' : p.1.get q.2 = aDenot σ a := by
        rw [get_after hp fun i hi => fq i fun hc => hba i hc hi, gp]
      obtain ⟨r, hr⟩ := fin_of_eq (E := E) (c := c) t op a b p.1 q.1 q.2 (by rw [gq', gp', da, db])
      rw [hp]
      show ∃ r, (Res.bind (b.eval E c _ p.2) _) = _ ∧ _
      rw [hq]
      refine ⟨r, hr, ?_, ?_⟩
      · rw [(fin_ok hr).2.1, gq', gp']; rfl
      · intro i hi
        simp only [aConsumed, List.mem_append, not_or] at hi
        rw [fin_frame hr (fun j hj => (ref_of hp hj).1) (fun j hj => (ref_of hq hj).1) hi.2, fq i hi.1.2, fp i hi.1.1]

/-- An order for an operator. -/
def mkOrd (r : Bool) (oa ob : List Bool → Bool) : List Bool → Bool
  | [] => r
  | false :: p => oa p
  | true :: p => ob p

theorem bind_ub' {β γ : Type*} {x : Res β} {f : β → Res γ} (h : x = .ub) : x.bind f = .ub := by rw [h]; rfl

theorem not_ref_of_consumed {e : AEx α} {i : ℕ} (h : i ∈ aConsumed E e) {o : List Bool → Bool} {s : AStore α} {q : AVal α × AStore α}
    (hq : e.eval E c o s = .ok q) : ∃ l, q.1 = .tmp l := by
  cases e with
  | var j => cases h
  | mv j => cases h
  | un t op a => exact un_tmp hq
  | bin t op a b => exact bin_tmp hq

theorem unsafe_eval {N : ℕ} (hN : N ≠ 0) (σ : AStore α) : ∀ (e : AEx α), (∀ i ∈ aVars e, (σ i).length = N) → ¬aSafe E e →
    ∃ ord, e.eval E .vec ord σ = .ub
  | .var i, _, h => absurd trivial h
  | .mv i, _, h => absurd trivial h
  | .un t op a, hl, h => by
    obtain ⟨ord, ho⟩ := unsafe_eval hN σ a hl h
    exact ⟨ord, by rw [eval_un]; exact bind_ub' ho⟩
  | .bin t op a b, hl, h => by
    have la : ∀ i ∈ aVars a, (σ i).length = N := fun i hi => hl i (List.mem_append_left _ hi)
    have lb : ∀ i ∈ aVars b, (σ i).length = N := fun i hi => hl i (List.mem_append_right _ hi)
    by_cases ha : aSafe E a
    · by_cases hb : aSafe E b
      · by_cases hab : ∀ i ∈ aConsumed E a, i ∉ aVars b
        · have hba : ¬∀ i ∈ aConsumed E b, i ∉ aVars a := fun hba => h ⟨ha, hb, hab, hba⟩
          push Not at hba
          obtain ⟨i, hi, hv⟩ := hba
          refine ⟨fun _ => true, ?_⟩
          cases hr : (AEx.bin t op a b).eval E .vec (fun _ => true) σ with
          | ub => rfl
          | ok r =>
            exfalso
            rw [eval_bin_right _ _ _ _ _ _ rfl] at hr
            obtain ⟨p, hp, hr⟩ := Res.bind_eq_ok' hr
            obtain ⟨q, hq, hr⟩ := Res.bind_eq_ok' hr
            obtain ⟨hl', -, -⟩ := fin_ok hr
            obtain ⟨p', hp', gp, -⟩ := safe_eval (E := E) (c := .vec) b (fun _ => true) σ hb lb
            obtain rfl : p' = p := by rw [hp'] at hp; injection hp
            obtain ⟨l, hl0⟩ := not_ref_of_consumed hi hp
            have e1 : (p'.1.get q.2).length = N := by
              rw [← denot_length b lb, ← gp, hl0]; rfl
            exact vars_ne a hq (fun hz => by rw [hz, e1] at hl'; exact hN hl'.symm) i hv (consumed_empty b hp hi)
        · push Not at hab
          obtain ⟨i, hi, hv⟩ := hab
          refine ⟨fun _ => false, ?_⟩
          cases hr : (AEx.bin t op a b).eval E .vec (fun _ => false) σ with
          | ub => rfl
          | ok r =>
            exfalso
            rw [eval_bin_left _ _ _ _ _ _ rfl] at hr
            obtain ⟨p, hp, hr⟩ := Res.bind_eq_ok' hr
            obtain ⟨q, hq, hr⟩ := Res.bind_eq_ok' hr
            obtain ⟨hl', -, -⟩ := fin_ok hr
            obtain ⟨p', hp', gp, -⟩ := safe_eval (E := E) (c := .vec) a (fun _ => false) σ ha la
            obtain rfl : p' = p := by rw [hp'] at hp; injection hp
            obtain ⟨l, hl0⟩ := not_ref_of_consumed hi hp
            have e1 : (p'.1.get q.2).length = N := by
              rw [← denot_length a la, ← gp, hl0]; rfl
            exact vars_ne b hq (fun hz => by rw [hz, e1] at hl'; exact hN hl') i hv (consumed_empty a hp hi)
      · obtain ⟨ob, ho⟩ := unsafe_eval hN σ b lb hb
        refine ⟨mkOrd true ob ob, ?_⟩
        rw [eval_bin_right _ _ _ _ _ _ rfl]
        exact bind_ub' ho
    · obtain ⟨oa, ho⟩ := unsafe_eval hN σ a la ha
      refine ⟨mkOrd false oa oa, ?_⟩
      rw [eval_bin_left _ _ _ _ _ _ rfl]
      exact bind_ub' ho

theorem safe_of_pure : ∀ (e : AEx α), aConsumed E e = [] → aSafe E e
  | .var _, _ => trivial
  | .mv _, _ => trivial
  | .un t op (.var _), _ => trivial
  | .un t op (.mv _), _ => trivial
  | .un t op (.un t' op' a), h => safe_of_pure (.un t' op' a) h
  | .un t op (.bin t' op' a b), h => safe_of_pure (.bin t' op' a b) h
  | .bin t op a b, h => by
    simp only [aConsumed, List.append_eq_nil_iff] at h
    exact ⟨safe_of_pure a h.1.1, safe_of_pure b h.1.2, by rw [h.1.1]; simp, by rw [h.1.2]; simp⟩

end SciCpp.AEv
