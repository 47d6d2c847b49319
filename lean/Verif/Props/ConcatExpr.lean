import Verif.Model.ConcatExpr
import Verif.Props.Manips
/-
  Property theorems C108: expressions of concatenations.
-/
namespace SciCpp
universe u
variable {α : Type u}

namespace Spec

/-- The contents of the operands from left to right. -/
def operands (env : CEnv α) : CExpr α → List α
  | .named x => (env x).data
  | .moved x => (env x).data
  | .temp _ l => l
  | .cat _ a b => operands env a ++ operands env b

/-- The named objects of an expression, with repetitions. -/
def names : CExpr α → List ℕ
  | .named x => [x]
  | .moved x => [x]
  | .temp _ _ => []
  | .cat _ a b => names a ++ names b

/-- The objects passed with `std::move`. -/
def moves : CExpr α → List ℕ
  | .named _ => []
  | .moved x => [x]
  | .temp _ _ => []
  | .cat _ a b => moves a ++ moves b

/-- No object is used again in an expression it is moved in. -/
def Linear (e : CExpr α) : Prop := ∀ x ∈ moves e, (names e).count x = 1

/-- Some operand is a `std::vector`. -/
def HasVec (env : CEnv α) : CExpr α → Prop
  | .named x => (env x).cont = .vec
  | .moved x => (env x).cont = .vec
  | .temp c _ => c = .vec
  | .cat _ a b => HasVec env a ∨ HasVec env b

/-- The expression is a vector whose storage may be reused: moved, a temporary, or computed. -/
def Reusable (env : CEnv α) (e : CExpr α) : Prop := HasVec env e ∧ ∀ x, e ≠ .named x

/-- No `|` has two operands whose storage may be reused. -/
def OneReusable (env : CEnv α) : CExpr α → Prop
  | .cat _ a b => OneReusable env a ∧ OneReusable env b ∧ ¬(Reusable env a ∧ Reusable env b)
  | _ => True

end Spec
open Spec

/-- What overload resolution selects. -/
theorem cresolve_eq (t1 t2 : Cont × Bool) : cresolve t1 t2 =
    if t1 = (.vec, true) ∧ t2 = (.vec, true) then none
    else if t1 = (.vec, true) then some .first
    else if t2 = (.vec, true) then some .second
    else if t1.1 = .arr ∧ t2.1 = .arr then some .arrays else some .const := by
  obtain ⟨c1, b1⟩ := t1
  obtain ⟨c2, b2⟩ := t2
  cases c1 <;> cases b1 <;> cases c2 <;> cases b2 <;> rfl

theorem hasVec_type (env : CEnv α) (e : CExpr α) (t : Cont × Bool) (h : e.type env = some t) :
    (t.1 = .vec ↔ HasVec env e) ∧ (t.2 = true ↔ ∀ x, e ≠ .named x) := by
  induction e generalizing t with
  | named x =>
    cases h
    exact ⟨Iff.rfl, by simp⟩
  | moved x =>
    cases h
    exact ⟨Iff.rfl, by simp⟩
  | temp c l =>
    cases h
    exact ⟨Iff.rfl, by simp⟩
  | cat o a b iha ihb =>
    unfold CExpr.type at h
    rcases ha : a.type env with _ | t1
    · rw [ha] at h; cases h
    rcases hb : b.type env with _ | t2
    · rw [ha, hb] at h; cases h
    obtain ⟨a1, -⟩ := iha t1 ha
    obtain ⟨b1, -⟩ := ihb t2 hb
    rw [ha, hb] at h
    simp only [cresolve_eq] at h
    have hv : HasVec env (.cat o a b) ↔ (t1.1 = .vec ∨ t2.1 = .vec) := by
      rw [a1, b1]; rfl
    rw [hv]
    obtain ⟨c1, r1⟩ := t1
    obtain ⟨c2, r2⟩ := t2
    cases c1 <;> cases r1 <;> cases c2 <;> cases r2 <;> simp at h <;> subst h <;> simp

/-- C108: an expression compiles exactly when no `|` has a reusable vector on both sides. -/
theorem C108_compiles (env : CEnv α) (e : CExpr α) : (e.type env).isSome ↔ OneReusable env e := by
  induction e with
  | named x => exact ⟨fun _ => trivial, fun _ => rfl⟩
  | moved x => exact ⟨fun _ => trivial, fun _ => rfl⟩
  | temp c l => exact ⟨fun _ => trivial, fun _ => rfl⟩
  | cat o a b iha ihb =>
    unfold CExpr.type OneReusable
    rw [← iha, ← ihb]
    rcases ha : a.type env with _ | t1
    · simp
    rcases hb : b.type env with _ | t2
    · simp
    have h1 := hasVec_type env a t1 ha
    have h2 := hasVec_type env b t2 hb
    simp only [Option.isSome_some, true_and, Reusable]
    rw [← h1.1, ← h1.2, ← h2.1, ← h2.2]
    simp only [cresolve_eq]
    obtain ⟨c1, r1⟩ := t1
    obtain ⟨c2, r2⟩ := t2
    cases c1 <;> cases r1 <;> cases c2 <;> cases r2 <;> simp

/-- The contents of an object that was moved from. -/
def Spec.emptied (env : CEnv α) (x : ℕ) : CObj α := ⟨(env x).cont, movedFrom (env x).cont (env x).data⟩

/-- The invariant of evaluation: the operand still refers to the contents it had, the containers that are not
moved are unchanged, the moved ones are unchanged until they are consumed. -/
structure Spec.EvalOk (env : CEnv α) (e : CExpr α) (env' : CEnv α) (o : COp α) : Prop where
  type : e.type env = some (o.type env')
  cont : ∀ x, (env' x).cont = (env x).cont
  read : o.read env' = operands env e
  kept : ∀ x, x ∉ moves e → env' x = env x
  leaf : ∀ x rv, o = .obj x rv → x ∈ names e ∧ (rv = true → e = .moved x)
  used : ∀ x ∈ moves e, o ≠ .obj x true → env' x = emptied env x
  same : ∀ x, o = .obj x true → env' x = env x

theorem moves_names (e : CExpr α) : ∀ x ∈ moves e, x ∈ names e := by
  induction e with
  | named x => simp [moves]
  | moved x => simp [moves, names]
  | temp c l => simp [moves]
  | cat o a b iha ihb =>
    intro x hx
    simp only [moves, names, List.mem_append] at hx ⊢
    exact hx.imp (iha x) (ihb x)

theorem operands_congr {env env' : CEnv α} (e : CExpr α) (h : ∀ x ∈ names e, env x = env' x) :
    operands env e = operands env' e := by
  induction e with
  | named x => simp only [operands, h x (by simp [names])]
  | moved x => simp only [operands, h x (by simp [names])]
  | temp c l => rfl
  | cat o a b iha ihb =>
    simp only [operands]
    rw [iha fun x hx => h x (by simp [names, hx]), ihb fun x hx => h x (by simp [names, hx])]

theorem type_congr {env env' : CEnv α} (h : ∀ x, (env x).cont = (env' x).cont) (e : CExpr α) :
    e.type env = e.type env' := by
  induction e with
  | named x => simp only [CExpr.type, h]
  | moved x => simp only [CExpr.type, h]
  | temp c l => rfl
  | cat o a b iha ihb => simp only [CExpr.type, iha, ihb]

theorem Spec.Linear.split {o : Bool} {a b : CExpr α} (h : Linear (.cat o a b)) :
    Linear a ∧ Linear b ∧ (∀ x ∈ moves a, x ∉ names b) ∧ ∀ x ∈ moves b, x ∉ names a := by
  have key : ∀ x, x ∈ moves a ∨ x ∈ moves b → (names a).count x + (names b).count x = 1 := fun x hx => by
    have := h x (by simpa [moves] using hx)
    simpa [names] using this
  have pa : ∀ x ∈ moves a, 0 < (names a).count x := fun x hx => List.count_pos_iff.2 (moves_names a x hx)
  have pb : ∀ x ∈ moves b, 0 < (names b).count x := fun x hx => List.count_pos_iff.2 (moves_names b x hx)
  refine ⟨fun x hx => ?_, fun x hx => ?_, fun x hx hn => ?_, fun x hx hn => ?_⟩
  · have := key x (.inl hx); have := pa x hx; omega
  · have := key x (.inr hx); have := pb x hx; omega
  · have := key x (.inl hx); have := pa x hx; have := List.count_pos_iff.2 hn; omega
  · have := key x (.inr hx); have := pb x hx; have := List.count_pos_iff.2 hn; omega

/-- Both operands evaluated, in either order. -/
structure Spec.PairOk (env : CEnv α) (a b : CExpr α) (env' : CEnv α) (o1 o2 : COp α) : Prop where
  type1 : a.type env = some (o1.type env')
  type2 : b.type env = some (o2.type env')
  cont : ∀ x, (env' x).cont = (env x).cont
  read1 : o1.read env' = operands env a
  read2 : o2.read env' = operands env b
  kept : ∀ x, x ∉ moves a → x ∉ moves b → env' x = env x
  leaf1 : ∀ x rv, o1 = .obj x rv → x ∈ names a ∧ (rv = true → a = .moved x)
  leaf2 : ∀ x rv, o2 = .obj x rv → x ∈ names b ∧ (rv = true → b = .moved x)
  used1 : ∀ x ∈ moves a, o1 ≠ .obj x true → env' x = emptied env x
  used2 : ∀ x ∈ moves b, o2 ≠ .obj x true → env' x = emptied env x
  same1 : ∀ x, o1 = .obj x true → env' x = env x
  same2 : ∀ x, o2 = .obj x true → env' x = env x

theorem Spec.EvalOk.pair {env env1 env2 : CEnv α} {a b : CExpr α} {o1 o2 : COp α}
    (h1 : EvalOk env a env1 o1) (h2 : EvalOk env1 b env2 o2)
    (dab : ∀ x ∈ moves a, x ∉ names b) (dba : ∀ x ∈ moves b, x ∉ names a) :
    PairOk env a b env2 o1 o2 := by
  have nb : ∀ x ∈ names b, env1 x = env x := fun x hx => h1.kept x fun hm => dab x hm hx
  have na : ∀ x ∈ names a, env2 x = env1 x := fun x hx => h2.kept x fun hm => dba x hm hx
  refine ⟨?_, ?_, fun x => (h2.cont x).trans (h1.cont x), ?_, ?_, ?_, h1.leaf, h2.leaf, ?_, ?_, ?_, ?_⟩
  · rw [h1.type]
    cases o1 with
    | obj x rv => simp only [COp.type, h2.cont]
    | tmp c l => rfl
  · rw [← h2.type]; exact type_congr (fun x => (h1.cont x).symm) b
  · rw [← h1.read]
    cases o1 with
    | obj x rv => simp only [COp.read, na x (h1.leaf x rv rfl).1]
    | tmp c l => rfl
  · rw [h2.read]; exact operands_congr b nb
  · intro x ha hb; rw [h2.kept x hb, h1.kept x ha]
  · intro x hx ho; rw [na x (moves_names a x hx)]; exact h1.used x hx ho
  · intro x hx ho
    rw [h2.used x hx ho]; unfold emptied; rw [nb x (moves_names b x hx)]
  · intro x ho
    have hn := (h1.leaf x true ho).1
    rw [na x hn, h1.same x ho]
  · intro x ho
    rw [h2.same x ho, nb x (h2.leaf x true ho).1]

theorem Spec.PairOk.symm {env env2 : CEnv α} {a b : CExpr α} {o1 o2 : COp α} (h : PairOk env b a env2 o2 o1) :
    PairOk env a b env2 o1 o2 :=
  ⟨h.type2, h.type1, h.cont, h.read2, h.read1, fun x ha hb => h.kept x hb ha, h.leaf2, h.leaf1, h.used2, h.used1,
    h.same2, h.same1⟩

theorem emptied_arr {env : CEnv α} {x : ℕ} (h : (env x).cont = .arr) : emptied env x = env x := by
  unfold emptied
  rw [h]
  show (⟨.arr, (env x).data⟩ : CObj α) = env x
  rw [← h]

theorem Spec.PairOk.call {env env' : CEnv α} {a b : CExpr α} {o1 o2 : COp α} {ord : Bool} (dflt : α)
    (h : PairOk env a b env' o1 o2) (dab : ∀ x ∈ moves a, x ∉ names b) (dba : ∀ x ∈ moves b, x ∉ names a)
    (ht : ((CExpr.cat ord a b).type env).isSome) :
    ∃ env'' o, ccall dflt env' o1 o2 = .ok (env'', o) ∧ EvalOk env (.cat ord a b) env'' o := by
  have noal : ∀ x y rv rv', o1 = .obj x rv → o2 = .obj y rv' → (rv = true ∨ rv' = true) → x ≠ y := by
    intro x y rv rv' e1 e2 hr hxy
    subst hxy
    obtain ⟨n1, m1⟩ := h.leaf1 x rv e1
    obtain ⟨n2, m2⟩ := h.leaf2 x rv' e2
    rcases hr with hr | hr
    · have := m1 hr; exact dab x (by rw [this]; simp [moves]) n2
    · have := m2 hr; exact dba x (by rw [this]; simp [moves]) n1
  have hty : (CExpr.cat ord a b).type env = match cresolve (o1.type env') (o2.type env') with
      | some .arrays => some (.arr, true)
      | some _ => some (.vec, true)
      | none => none := by
    simp only [CExpr.type, h.type1, h.type2]
    rfl
  have cc := C30_concat_categories_partial dflt (o1.read env') (o2.read env')
  have rd : o1.read env' ++ o2.read env' = operands env (.cat ord a b) := by
    rw [h.read1, h.read2]; rfl
  -- a moved array is never consumed
  have arr1 : ∀ x ∈ moves a, ¬(o1.type env' = (.vec, true)) → env' x = emptied env x := by
    intro x hx hn
    by_cases ho : o1 = .obj x true
    · rw [h.same1 x ho]
      have : (env x).cont ≠ .vec := fun hc => hn (by rw [ho]; simp only [COp.type, h.cont, hc])
      rw [emptied_arr (by cases hc : (env x).cont <;> simp_all)]
    · exact h.used1 x hx ho
  have arr2 : ∀ x ∈ moves b, ¬(o2.type env' = (.vec, true)) → env' x = emptied env x := by
    intro x hx hn
    by_cases ho : o2 = .obj x true
    · rw [h.same2 x ho]
      have : (env x).cont ≠ .vec := fun hc => hn (by rw [ho]; simp only [COp.type, h.cont, hc])
      rw [emptied_arr (by cases hc : (env x).cont <;> simp_all)]
    · exact h.used2 x hx ho
  rw [hty] at ht
  have hmov : ∀ x, x ∈ moves (CExpr.cat ord a b) ↔ x ∈ moves a ∨ x ∈ moves b := by simp [moves]
  unfold ccall
  have hres := cresolve_eq (o1.type env') (o2.type env')
  by_cases c1 : o1.type env' = (.vec, true)
  · by_cases c2 : o2.type env' = (.vec, true)
    · rw [hres, if_pos ⟨c1, c2⟩] at ht; cases ht
    · rw [if_neg (fun hh => c2 hh.2), if_pos c1] at hres
      have al : COp.alias o1 o2 = false := by
        cases o1 with
        | tmp c l => rfl
        | obj x rv =>
          cases o2 with
          | tmp c l => rfl
          | obj y rv' =>
            have : rv = true := by simpa [COp.type] using congrArg Prod.snd c1
            simpa [COp.alias] using noal x y rv rv' rfl rfl (.inl this)
      simp only [hres, al, cc.2.1, rd, Bool.false_eq_true, if_false]
      refine ⟨_, _, rfl, ⟨by rw [hty, hres]; rfl, ?_, rfl, ?_, by simp, ?_, by simp⟩⟩
      · intro x
        cases o1 with
        | tmp c l => exact h.cont x
        | obj y rv =>
          simp only [COp.consume, Function.update_apply]
          split_ifs with hxy
          · subst hxy; exact h.cont x
          · exact h.cont x
      · intro x hx
        rw [hmov] at hx
        push Not at hx
        have hk := h.kept x hx.1 hx.2
        cases o1 with
        | tmp c l => exact hk
        | obj y rv =>
          have hr : rv = true := by simpa [COp.type] using congrArg Prod.snd c1
          have hy : y ≠ x := fun hxy => hx.1 (by rw [(h.leaf1 y rv rfl).2 hr, hxy]; simp [moves])
          simp only [COp.consume, Function.update_apply, hk, if_neg hy.symm]
      · intro x hx _
        rw [hmov] at hx
        cases o1 with
        | tmp c l =>
          rcases hx with hx | hx
          · exact h.used1 x hx (by simp)
          · exact arr2 x hx c2
        | obj y rv =>
          have hr : rv = true := by simpa [COp.type] using congrArg Prod.snd c1
          subst hr
          obtain ⟨n1, m1⟩ := h.leaf1 y true rfl
          simp only [COp.consume, Function.update_apply]
          by_cases hxy : x = y
          · subst hxy
            simp only [if_true]
            rw [h.same1 x rfl]; rfl
          · rw [if_neg hxy]
            rcases hx with hx | hx
            · exact h.used1 x hx (by simpa using Ne.symm hxy)
            · exact arr2 x hx c2
  · by_cases c2 : o2.type env' = (.vec, true)
    · rw [if_neg (fun hh => c1 hh.1), if_neg c1, if_pos c2] at hres
      have al : COp.alias o1 o2 = false := by
        cases o1 with
        | tmp c l => rfl
        | obj x rv =>
          cases o2 with
          | tmp c l => rfl
          | obj y rv' =>
            have : rv' = true := by simpa [COp.type] using congrArg Prod.snd c2
            simpa [COp.alias] using noal x y rv rv' rfl rfl (.inr this)
      simp only [hres, al, cc.2.2, rd, Bool.false_eq_true, if_false]
      refine ⟨_, _, rfl, ⟨by rw [hty, hres]; rfl, ?_, rfl, ?_, by simp, ?_, by simp⟩⟩
      · intro x
        cases o2 with
        | tmp c l => exact h.cont x
        | obj y rv =>
          simp only [COp.consume, Function.update_apply]
          split_ifs with hxy
          · subst hxy; exact h.cont x
          · exact h.cont x
      · intro x hx
        rw [hmov] at hx
        push Not at hx
        have hk := h.kept x hx.1 hx.2
        cases o2 with
        | tmp c l => exact hk
        | obj y rv =>
          have hr : rv = true := by simpa [COp.type] using congrArg Prod.snd c2
          have hy : y ≠ x := fun hxy => hx.2 (by rw [(h.leaf2 y rv rfl).2 hr, hxy]; simp [moves])
          simp only [COp.consume, Function.update_apply, hk, if_neg hy.symm]
      · intro x hx _
        rw [hmov] at hx
        cases o2 with
        | tmp c l =>
          rcases hx with hx | hx
          · exact arr1 x hx c1
          · exact h.used2 x hx (by simp)
        | obj y rv =>
          have hr : rv = true := by simpa [COp.type] using congrArg Prod.snd c2
          subst hr
          simp only [COp.consume, Function.update_apply]
          by_cases hxy : x = y
          · subst hxy
            simp only [if_true]
            rw [h.same2 x rfl]; rfl
          · rw [if_neg hxy]
            rcases hx with hx | hx
            · exact arr1 x hx c1
            · exact h.used2 x hx (by simpa using Ne.symm hxy)
    · rw [if_neg (fun hh => c1 hh.1), if_neg c1, if_neg c2] at hres
      have used : ∀ x ∈ moves (CExpr.cat ord a b), env' x = emptied env x := fun x hx => by
        rw [hmov] at hx
        exact hx.elim (fun hx => arr1 x hx c1) (fun hx => arr2 x hx c2)
      have kept : ∀ x, x ∉ moves (CExpr.cat ord a b) → env' x = env x := fun x hx => by
        rw [hmov] at hx
        push Not at hx
        exact h.kept x hx.1 hx.2
      by_cases c3 : (o1.type env').1 = .arr ∧ (o2.type env').1 = .arr
      · rw [if_pos c3] at hres
        simp only [hres, cc.1, rd]
        exact ⟨_, _, rfl, ⟨by rw [hty, hres]; rfl, h.cont, rfl, kept, by simp, fun x hx _ => used x hx, by simp⟩⟩
      · rw [if_neg c3] at hres
        simp only [hres, cc.1, rd]
        exact ⟨_, _, rfl, ⟨by rw [hty, hres]; rfl, h.cont, rfl, kept, by simp, fun x hx _ => used x hx, by simp⟩⟩

theorem eval_ok (dflt : α) (e : CExpr α) : ∀ (env : CEnv α), (e.type env).isSome → Linear e →
    ∃ env' o, e.eval dflt env = .ok (env', o) ∧ EvalOk env e env' o := by
  induction e with
  | named x =>
    intro env _ _
    exact ⟨env, _, rfl, rfl, fun _ => rfl, rfl, fun _ _ => rfl, by simp +contextual [names], by simp [moves],
      by simp⟩
  | moved x =>
    intro env _ _
    exact ⟨env, _, rfl, rfl, fun _ => rfl, rfl, fun _ _ => rfl, by simp +contextual [names], by simp [moves],
      fun _ _ => rfl⟩
  | temp c l =>
    intro env _ _
    exact ⟨env, _, rfl, rfl, fun _ => rfl, rfl, fun _ _ => rfl, by simp, by simp [moves], by simp⟩
  | cat ord a b iha ihb =>
    intro env ht hl
    obtain ⟨la, lb, dab, dba⟩ := hl.split
    have hc := (C108_compiles env (.cat ord a b)).1 ht
    have ta := (C108_compiles env a).2 hc.1
    have tb := (C108_compiles env b).2 hc.2.1
    cases ord
    · obtain ⟨env1, o2, e2, h2⟩ := ihb env tb lb
      obtain ⟨env2, o1, e1, h1⟩ := iha env1 (by rw [type_congr h2.cont]; exact ta) la
      obtain ⟨env3, o, e3, h3⟩ := (h2.pair h1 dba dab).symm.call (ord := false) dflt dab dba ht
      exact ⟨env3, o, by rw [CExpr.eval, e2]; show (do let r1 ← a.eval dflt env1; _) = _; rw [e1]; exact e3, h3⟩
    · obtain ⟨env1, o1, e1, h1⟩ := iha env ta la
      obtain ⟨env2, o2, e2, h2⟩ := ihb env1 (by rw [type_congr h1.cont]; exact tb) lb
      obtain ⟨env3, o, e3, h3⟩ := (h1.pair h2 dab dba).call (ord := true) dflt dab dba ht
      exact ⟨env3, o, by rw [CExpr.eval, e1]; show (do let r2 ← b.eval dflt env1; _) = _; rw [e2]; exact e3, h3⟩

/-- C108: every concatenation expression that compiles, of any shape and depth, whatever the order of
evaluation, in which moved objects are used once, is defined and yields the contents of its operands from left to right;
objects that are not moved keep their contents, moved vectors are left empty. -/
theorem C108_value_partial (dflt : α) (env : CEnv α) (e : CExpr α) (hc : OneReusable env e) (hl : Linear e) :
    ∃ env', e.value dflt env = .ok (operands env e, env') ∧
      (∀ x, x ∉ moves e → env' x = env x) ∧
      (∀ x ∈ moves e, env' x = ⟨(env x).cont, movedFrom (env x).cont (env x).data⟩) := by
  obtain ⟨env', o, h1, h2⟩ := eval_ok dflt e env ((C108_compiles env e).2 hc) hl
  cases o with
  | tmp c l =>
    refine ⟨env', ?_, h2.kept, fun x hx => h2.used x hx (by simp)⟩
    unfold CExpr.value
    rw [h1, ← h2.read]
    rfl
  | obj x rv =>
    cases rv
    · refine ⟨env', ?_, h2.kept, fun y hy => h2.used y hy (by simp)⟩
      unfold CExpr.value
      rw [h1, ← h2.read]
      rfl
    · obtain ⟨-, he⟩ := h2.leaf x true rfl
      have he := he rfl
      have hs := h2.same x rfl
      refine ⟨(COp.obj x true : COp α).consume env', ?_, fun y hy => ?_, fun y hy => ?_⟩
      · unfold CExpr.value
        rw [h1, ← h2.read]
        rfl
      · have hyx : y ≠ x := by rw [he] at hy; simpa [moves] using hy
        simp only [COp.consume, Function.update_apply, if_neg hyx]
        exact h2.kept y hy
      · have hyx : y = x := by rw [he] at hy; simpa [moves] using hy
        subst hyx
        simp only [COp.consume, Function.update_apply, if_true, hs]

/-- All operands of an expression are named containers passed without `std::move`. -/
def Spec.AllNamed (es : List (CExpr α)) (xs : List ℕ) : Prop := es = xs.map .named

theorem many_named (env : CEnv α) (xs : List ℕ) : ∀ (ord : ℕ → Bool) (e : CExpr α),
    CExpr.many ord (xs.map .named) = some e →
    OneReusable env e ∧ moves e = [] ∧ operands env e = (xs.map fun x => (env x).data).flatten := by
  induction xs with
  | nil => intro ord e h; cases h
  | cons x xs ih =>
    intro ord e h
    cases xs with
    | nil => cases h; exact ⟨trivial, rfl, by simp [operands]⟩
    | cons y ys =>
      simp only [List.map_cons, CExpr.many] at h
      rcases hr : CExpr.many (fun i => ord (i + 1)) (CExpr.named y :: ys.map CExpr.named) with _ | r
      · rw [hr] at h; cases h
      · rw [hr] at h
        cases h
        obtain ⟨a1, a2, a3⟩ := ih _ r (by simpa using hr)
        refine ⟨⟨trivial, a1, fun hh => hh.1.2 x rfl⟩, by simp [moves, a2], ?_⟩
        simp only [operands, a3, List.map_cons, List.flatten_cons]

/-- C108: `concatenate(x1, …, xn)` of any number of named containers compiles, is the contents of all of them
in order, and changes none of them. -/
theorem C108_variadic (dflt : α) (env : CEnv α) (x : ℕ) (xs : List ℕ) (ord : ℕ → Bool) :
    ∃ e, CExpr.many ord ((x :: xs).map .named) = some e ∧
      e.value dflt env = .ok (((x :: xs).map fun x => (env x).data).flatten, env) := by
  have hex : ∀ (xs : List ℕ) (x : ℕ) (ord : ℕ → Bool),
      ∃ e : CExpr α, CExpr.many ord ((x :: xs).map .named) = some e := by
    intro xs
    induction xs with
    | nil => intro x ord; exact ⟨_, rfl⟩
    | cons y ys ih =>
      intro x ord
      obtain ⟨e, he⟩ := ih y fun i => ord (i + 1)
      refine ⟨.cat (ord 0) (.named x) e, ?_⟩
      simp only [List.map_cons, CExpr.many] at he ⊢
      rw [he]; rfl
  obtain ⟨e, he⟩ := hex xs x ord
  obtain ⟨h1, h2, h3⟩ := many_named env (x :: xs) ord e he
  obtain ⟨env', g1, g2, -⟩ := C108_value_partial dflt env e h1 (by intro y hy; rw [h2] at hy; cases hy)
  refine ⟨e, he, ?_⟩
  rw [g1, h3]
  have : env' = env := funext fun y => g2 y (by rw [h2]; simp)
  rw [this]

/-- The chain `x0 | x1 | … | xn` of named containers. -/
def Spec.chain (ord : ℕ → Bool) (e : CExpr α) : List ℕ → CExpr α
  | [] => e
  | x :: xs => chain (fun i => ord (i + 1)) (.cat (ord 0) e (.named x)) xs

/-- C108: a chain `x0 | x1 | … | xn` compiles, is the contents of all operands in order, and changes none. -/
theorem C108_chain (dflt : α) (env : CEnv α) (x : ℕ) (xs : List ℕ) (ord : ℕ → Bool) :
    (chain ord (.named x) xs).value dflt env = .ok (((x :: xs).map fun x => (env x).data).flatten, env) := by
  have key : ∀ (xs : List ℕ) (e : CExpr α) (ord : ℕ → Bool), OneReusable env e → moves e = [] →
      OneReusable env (chain ord e xs) ∧ moves (chain ord e xs) = [] ∧
      operands env (chain ord e xs) = operands env e ++ (xs.map fun x => (env x).data).flatten := by
    intro xs
    induction xs with
    | nil => intro e ord h1 h2; exact ⟨h1, h2, by simp [chain]⟩
    | cons y ys ih =>
      intro e ord h1 h2
      obtain ⟨a1, a2, a3⟩ := ih (.cat (ord 0) e (.named y)) (fun i => ord (i + 1))
        ⟨h1, trivial, fun hh => hh.2.2 y rfl⟩ (by simp [moves, h2])
      refine ⟨a1, a2, ?_⟩
      simp only [chain, a3, operands, List.map_cons, List.flatten_cons, List.append_assoc]
  obtain ⟨h1, h2, h3⟩ := key xs (.named x) ord trivial rfl
  obtain ⟨env', g1, g2, -⟩ := C108_value_partial dflt env _ h1 (by intro y hy; rw [h2] at hy; cases hy)
  rw [g1, h3]
  have : env' = env := funext fun y => g2 y (by rw [h2]; simp)
  rw [this]
  simp [operands]

/-- A non-trivial expression: `(a | b) | std::move(arr) | …` with vectors and arrays. -/
example : ((CExpr.cat true (.cat false (.named 0) (.moved 1)) (.named 0)).value (0 : ℕ)
    (fun x => if x = 0 then ⟨.vec, [1, 2]⟩ else if x = 1 then ⟨.vec, [3]⟩ else ⟨.arr, []⟩) >>=
      fun r => Res.ok (r.1, (r.2 0).data, (r.2 1).data)) = .ok ([1, 2, 3, 1, 2], [1, 2], []) := by decide

/-- C108 is false for other expressions: `(a | b) | (c | d)` and `concatenate(std::move(a), b, c)` of vectors
do not compile (the two overloads that reuse an operand are ambiguous), and `std::move(a) | a` is
undefined. -/
theorem C108_compiles_false (dflt : α) (env : CEnv α) (h : ∀ x, (env x).cont = .vec) (o1 o2 o3 : Bool)
    (a b c d : ℕ) :
    (CExpr.cat o1 (.cat o2 (.named a) (.named b)) (.cat o3 (.named c) (.named d)) : CExpr α).type env = none ∧
    (∃ e, CExpr.many (fun _ => o1) [.moved a, .named b, .named c] = some e ∧ (e : CExpr α).type env = none) ∧
    (CExpr.cat o1 (.moved a) (.named a) : CExpr α).type env = some (.vec, true) ∧
    (CExpr.cat o1 (.moved a) (.named a) : CExpr α).eval dflt env = .ub := by
  refine ⟨?_, ⟨_, rfl, ?_⟩, ?_, ?_⟩
  · simp only [CExpr.type, h]; rfl
  · simp only [CExpr.type, h]; rfl
  · simp only [CExpr.type, h]; rfl
  · cases o1 <;>
    · simp only [CExpr.eval]
      show ccall dflt env (.obj a true) (.obj a false) = .ub
      unfold ccall
      simp only [COp.type, h]
      simp [COp.alias, cresolve_eq]

end SciCpp
