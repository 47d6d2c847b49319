import Verif.Model.EigenView
import Verif.Props.Tuple
/-
  Property theorems C140: conversions of vectors to Eigen are views of the vector's storage, conversions of arrays are copies.
-/
namespace SciCpp
namespace EigenView

variable {α : Type}

/-- States of programs: every vector has a live buffer of its own, with no more elements than its capacity. -/
structure WF (w : World α) : Prop where
  live : ∀ v b, w.vecs v = some b → b < w.next ∧ ∃ l c, w.heap b = some (l, c) ∧ l.length ≤ c
  inj : ∀ v v' b, w.vecs v = some b → w.vecs v' = some b → v = v'

theorem WF.empty : WF (empty : World α) := ⟨fun _ _ h => by (cases h), fun _ _ _ h => by (cases h)⟩

theorem upd {β γ : Type} [DecidableEq β] (f : β → γ) (a x : β) (y : γ) : Function.update f a y x = if x = a then y else f x := by
  unfold Function.update
  split_ifs with h
  · subst h; rfl
  · rfl

theorem WF.store {w : World α} (hw : WF w) {v b : ℕ} (hv : w.vecs v = some b) (l : List α) (c nc : ℕ) : WF (store w v b l c nc) := by
  obtain ⟨live, inj⟩ := hw
  unfold EigenView.store
  split_ifs with h
  · refine ⟨fun v' b' h' => ?_, inj⟩
    obtain ⟨h1, l1, c1, h2, h3⟩ := live v' b' h'
    refine ⟨h1, ?_⟩
    simp only [upd]
    split_ifs with hb
    · exact ⟨l, c, rfl, h⟩
    · exact ⟨l1, c1, h2, h3⟩
  · constructor
    · intro v' b' h'
      simp only [upd] at h' ⊢
      split_ifs at h' with hv'
      · simp only [Option.some.injEq] at h'
        subst h'
        refine ⟨Nat.lt_succ_self _, ?_⟩
        rw [if_pos rfl]
        exact ⟨l, max nc l.length, rfl, le_max_right _ _⟩
      · obtain ⟨h1, l1, c1, h2, h3⟩ := live v' b' h'
        refine ⟨by omega, ?_⟩
        rw [if_neg (by omega), if_neg]
        · exact ⟨l1, c1, h2, h3⟩
        · rintro rfl
          exact hv' (inj _ _ _ h' hv)
    · intro v1 v2 b' h1 h2
      simp only [upd] at h1 h2
      split_ifs at h1 h2 with e1 e2 e2
      · rw [e1, e2]
      · simp only [Option.some.injEq] at h1
        have := (live v2 b' h2).1; omega
      · simp only [Option.some.injEq] at h2
        have := (live v1 b' h1).1; omega
      · exact inj _ _ _ h1 h2

theorem WF.step {w w' : World α} (hw : WF w) {o : Op α} (h : step w o = .ok w') : WF w' := by
  cases o with
  | set v i x =>
    simp only [EigenView.step] at h
    split at h
    · cases h
    · rename_i b hv
      split at h
      · cases h
      · split_ifs at h
        cases h
        exact hw.store hv _ _ _
  | push v x nc =>
    simp only [EigenView.step] at h
    split at h
    · cases h
    · rename_i b hv
      split at h
      · cases h
      · cases h
        exact hw.store hv _ _ _
  | pop v =>
    simp only [EigenView.step] at h
    split at h
    · cases h
    · rename_i b hv
      split at h
      · cases h
      · split_ifs at h
        cases h
        exact hw.store hv _ _ _
  | reserve v n =>
    simp only [EigenView.step] at h
    split at h
    · cases h
    · rename_i b hv
      split at h
      · cases h
      · rename_i l c hb
        split_ifs at h with hc
        · cases h; exact hw
        · cases h
          obtain ⟨-, l0, c0, hb0, hlc⟩ := hw.live v b hv
          rw [hb] at hb0
          cases hb0
          have := hw.store hv l 0 n
          rcases Nat.eq_zero_or_pos l.length with h0 | h0
          · constructor
            · intro v' b' h'
              simp only [upd] at h' ⊢
              split_ifs at h' with hv'
              · simp only [Option.some.injEq] at h'
                subst h'
                refine ⟨Nat.lt_succ_self _, ?_⟩
                rw [if_pos rfl]
                exact ⟨l, n, rfl, by omega⟩
              · obtain ⟨h1, l1, c1, h2, h3⟩ := hw.live v' b' h'
                refine ⟨by omega, ?_⟩
                rw [if_neg (by omega), if_neg]
                · exact ⟨l1, c1, h2, h3⟩
                · rintro rfl
                  exact hv' (hw.inj _ _ _ h' hv)
            · intro v1 v2 b' h1 h2
              simp only [upd] at h1 h2
              split_ifs at h1 h2 with e1 e2 e2
              · rw [e1, e2]
              · simp only [Option.some.injEq] at h1
                have := (hw.live v2 b' h2).1; omega
              · simp only [Option.some.injEq] at h2
                have := (hw.live v1 b' h1).1; omega
              · exact hw.inj _ _ _ h1 h2
          · unfold EigenView.store at this
            rw [if_neg (by omega), max_eq_left (by omega)] at this
            exact this
  | create v l =>
    simp only [EigenView.step] at h
    split at h
    · cases h
    · rename_i hv
      cases h
      constructor
      · intro v' b' h'
        simp only [upd] at h' ⊢
        split_ifs at h' with hv'
        · simp only [Option.some.injEq] at h'
          subst h'
          exact ⟨Nat.lt_succ_self _, l, l.length, if_pos rfl, le_rfl⟩
        · obtain ⟨h1, l1, c1, h2, h3⟩ := hw.live v' b' h'
          exact ⟨by omega, l1, c1, by rw [if_neg (by omega)]; exact h2, h3⟩
      · intro v1 v2 b' h1 h2
        simp only [upd] at h1 h2
        split_ifs at h1 h2 with e1 e2 e2
        · rw [e1, e2]
        · simp only [Option.some.injEq] at h1
          have := (hw.live v2 b' h2).1; omega
        · simp only [Option.some.injEq] at h2
          have := (hw.live v1 b' h1).1; omega
        · exact hw.inj _ _ _ h1 h2
  | move v v2 =>
    simp only [EigenView.step] at h
    split at h
    · rename_i b hv hv2
      cases h
      have hlt := (hw.live v b hv).1
      constructor
      · intro v' b' h'
        simp only [upd] at h' ⊢
        split_ifs at h' with e2 e1
        · simp only [Option.some.injEq] at h'
          subst h'
          obtain ⟨h1, l1, c1, h2, h3⟩ := hw.live v _ hv
          exact ⟨by omega, l1, c1, by rw [if_neg (by omega)]; exact h2, h3⟩
        · simp only [Option.some.injEq] at h'
          subst h'
          exact ⟨Nat.lt_succ_self _, [], 0, if_pos rfl, le_rfl⟩
        · obtain ⟨h1, l1, c1, h2, h3⟩ := hw.live v' b' h'
          exact ⟨by omega, l1, c1, by rw [if_neg (by omega)]; exact h2, h3⟩
      · intro v1 v3 b' h1 h2
        simp only [upd] at h1 h2
        split_ifs at h1 h2 with a1 a2 a3 a4 a5 a6 a7 a8
        all_goals first
          | (simp only [Option.some.injEq] at h1 h2; omega)
          | (simp only [Option.some.injEq] at h1; subst h1; have := (hw.live _ _ h2).1; omega)
          | (simp only [Option.some.injEq] at h2; subst h2; have := (hw.live _ _ h1).1; omega)
          | (simp only [Option.some.injEq] at h1; subst h1; exact absurd (hw.inj _ _ _ h2 hv) (by assumption))
          | (simp only [Option.some.injEq] at h2; subst h2; exact absurd (hw.inj _ _ _ h1 hv) (by assumption))
          | exact hw.inj _ _ _ h1 h2
    · cases h
  | destroy v =>
    simp only [EigenView.step] at h
    split at h
    · cases h
    · rename_i b hv
      cases h
      constructor
      · intro v' b' h'
        simp only [upd] at h' ⊢
        split_ifs at h' with hv'
        obtain ⟨h1, l1, c1, h2, h3⟩ := hw.live v' b' h'
        refine ⟨h1, l1, c1, ?_, h3⟩
        rw [if_neg]
        · exact h2
        · rintro rfl
          exact hv' (hw.inj _ _ _ h' hv)
      · intro v1 v2 b' h1 h2
        simp only [upd] at h1 h2
        split_ifs at h1 h2
        exact hw.inj _ _ _ h1 h2

theorem WF.run {w w' : World α} (hw : WF w) {os : List (Op α)} (h : run w os = .ok w') : WF w' := by
  induction os generalizing w with
  | nil => cases h; exact hw
  | cons o os ih =>
    unfold EigenView.run at h
    cases h1 : EigenView.step w o with
    | ub => rw [h1] at h; cases h
    | ok w1 => rw [h1] at h; exact ih (hw.step h1) h

/-! ### the view and its vector -/

/-- Operations after which the vector `v` may still be the same object with the same storage, if it is not filled beyond the capacity `c`: it is neither
destroyed nor moved from, and `reserve` does not ask for more. -/
def Quiet (v c : ℕ) : Op α → Prop
  | .destroy v' => v' ≠ v
  | .move v' _ => v' ≠ v
  | .reserve v' n => v' = v → n ≤ c
  | _ => True

theorem store_keep {w : World α} (hw : WF w) {v b : ℕ} {l : List α} {c : ℕ} (hv : w.vecs v = some b) (hb : w.heap b = some (l, c))
    {v' b' : ℕ} (hv' : w.vecs v' = some b') {l' l2 : List α} {c' nc : ℕ} (hb' : w.heap b' = some (l2, c'))
    (hsize : ∀ l1, (store w v' b' l' c' nc).elems v = some l1 → l1.length ≤ c) :
    (store w v' b' l' c' nc).vecs v = some b ∧ ∃ l1, (store w v' b' l' c' nc).heap b = some (l1, c) := by
  have hlt := (hw.live v b hv).1
  by_cases hvv : v = v'
  · subst hvv
    rw [hv] at hv'
    cases hv'
    rw [hb] at hb'
    cases hb'
    have hl : l'.length ≤ c := by
      apply hsize
      unfold store World.elems World.vec
      split_ifs with h
      · simp [hv, upd]
      · simp [upd]
    unfold store
    rw [if_pos hl]
    exact ⟨hv, l', by simp only [upd, if_true]⟩
  · have hbb : b ≠ b' := by
      rintro rfl
      exact hvv (hw.inj _ _ _ hv hv')
    unfold store
    split_ifs with h
    · exact ⟨hv, l, by simp only [upd, if_neg hbb, hb]⟩
    · refine ⟨by simp only [upd, if_neg hvv, hv], l, ?_⟩
      simp only [upd]
      rw [if_neg (by omega), if_neg hbb, hb]

theorem step_keep {w w' : World α} (hw : WF w) {v b : ℕ} {l : List α} {c : ℕ} (hv : w.vecs v = some b) (hb : w.heap b = some (l, c))
    {o : Op α} (h : step w o = .ok w') (hq : Quiet v c o) (hsize : ∀ l1, w'.elems v = some l1 → l1.length ≤ c) :
    w'.vecs v = some b ∧ ∃ l1, w'.heap b = some (l1, c) := by
  have hlt := (hw.live v b hv).1
  cases o with
  | set v' i x =>
    simp only [EigenView.step] at h
    split at h
    · cases h
    · rename_i b' hv'
      split at h
      · cases h
      · rename_i l2 c2 hb'
        split_ifs at h
        cases h
        exact store_keep hw hv hb hv' hb' hsize
  | push v' x nc =>
    simp only [EigenView.step] at h
    split at h
    · cases h
    · rename_i b' hv'
      split at h
      · cases h
      · rename_i l2 c2 hb'
        cases h
        exact store_keep hw hv hb hv' hb' hsize
  | pop v' =>
    simp only [EigenView.step] at h
    split at h
    · cases h
    · rename_i b' hv'
      split at h
      · cases h
      · rename_i l2 c2 hb'
        split_ifs at h
        cases h
        exact store_keep hw hv hb hv' hb' hsize
  | reserve v' n =>
    simp only [EigenView.step] at h
    split at h
    · cases h
    · rename_i b' hv'
      split at h
      · cases h
      · rename_i l2 c2 hb'
        split_ifs at h with hc
        · cases h; exact ⟨hv, l, hb⟩
        · cases h
          have hvv : v ≠ v' := by
            rintro rfl
            rw [hv] at hv'
            cases hv'
            rw [hb] at hb'
            cases hb'
            exact hc (hq rfl)
          have hbb : b ≠ b' := by
            rintro rfl
            exact hvv (hw.inj _ _ _ hv hv')
          refine ⟨by simp only [upd, if_neg hvv, hv], l, ?_⟩
          simp only [upd]
          rw [if_neg (by omega), if_neg hbb, hb]
  | create v' l' =>
    simp only [EigenView.step] at h
    split at h
    · cases h
    · rename_i hv'
      cases h
      have hvv : v ≠ v' := by
        rintro rfl
        rw [hv] at hv'
        cases hv'
      refine ⟨by simp only [upd, if_neg hvv, hv], l, ?_⟩
      simp only [upd]
      rw [if_neg (by omega), hb]
  | move v' v2 =>
    simp only [EigenView.step] at h
    split at h
    · rename_i b' hv' hv2
      cases h
      have hvv : v ≠ v' := fun e => hq e.symm
      have hvv2 : v ≠ v2 := by
        rintro rfl
        rw [hv] at hv2
        cases hv2
      refine ⟨by simp only [upd, if_neg hvv, if_neg hvv2, hv], l, ?_⟩
      simp only [upd]
      rw [if_neg (by omega), hb]
    · cases h
  | destroy v' =>
    simp only [EigenView.step] at h
    split at h
    · cases h
    · rename_i b' hv'
      cases h
      have hvv : v ≠ v' := fun e => hq e.symm
      have hbb : b ≠ b' := by
        rintro rfl
        exact hvv (hw.inj _ _ _ hv hv')
      exact ⟨by simp only [upd, if_neg hvv, hv], l, by simp only [upd, if_neg hbb, hb]⟩

theorem run_keep {w w' : World α} (hw : WF w) {v b : ℕ} {l : List α} {c : ℕ} (hv : w.vecs v = some b) (hb : w.heap b = some (l, c))
    {os : List (Op α)} (h : run w os = .ok w') (hq : ∀ o ∈ os, Quiet v c o)
    (hsize : ∀ k wk l1, run w (os.take k) = .ok wk → wk.elems v = some l1 → l1.length ≤ c) :
    w'.vecs v = some b ∧ ∃ l1, w'.heap b = some (l1, c) := by
  induction os generalizing w l with
  | nil => cases h; exact ⟨hv, l, hb⟩
  | cons o os ih =>
    unfold EigenView.run at h
    cases h1 : EigenView.step w o with
    | ub => rw [h1] at h; cases h
    | ok w1 =>
      rw [h1] at h
      obtain ⟨k1, l1, k2⟩ := step_keep hw hv hb h1 (hq o (by simp)) (fun l1 e => hsize 1 w1 l1 (by
        rw [List.take_succ_cons, List.take_zero]
        unfold EigenView.run
        rw [h1]; rfl) e)
      refine ih (hw.step h1) k1 k2 h (fun o' ho' => hq o' (List.mem_cons_of_mem _ ho')) ?_
      intro k wk l2 e
      apply hsize (k + 1) wk l2
      rw [List.take_succ_cons]
      unfold EigenView.run
      rw [h1]
      exact e

theorem view_inv {w : World α} {v : ℕ} {size : ℤ} {m : View} (h : toEigenView w v size = .ok m) :
    ∃ l c, w.vecs v = some m.buf ∧ w.heap m.buf = some (l, c) ∧ (m.len : ℤ) = if size = -1 then toI32 l.length else size := by
  unfold toEigenView at h
  split at h
  · cases h
  · rename_i b hv
    split at h
    · cases h
    · rename_i l c hb
      simp only at h
      generalize hsz : (if size = -1 then toI32 (l.length : ℤ) else size) = sz at h
      split_ifs at h with h0
      cases h
      refine ⟨l, c, hv, hb, ?_⟩
      rw [hsz]
      exact Int.toNat_of_nonneg h0

/-- C140, at the moment of the conversion, reading the result gives the first elements of the vector (the function of C82). -/
theorem C140_now (w : World α) (v : ℕ) (l : List α) (hl : w.elems v = some l) (size : ℤ) :
    (toEigenView w v size >>= read w) = toEigen l size := by
  unfold World.elems World.vec at hl
  unfold toEigenView
  cases hv : w.vecs v with
  | none => rw [hv] at hl; cases hl
  | some b =>
    rw [hv] at hl
    simp only [Option.bind_some, Option.map_eq_some_iff] at hl
    obtain ⟨⟨l', c⟩, hb, rfl⟩ := hl
    simp only [hb]
    unfold toEigen
    simp only
    generalize (if size = -1 then toI32 (l'.length : ℤ) else size) = sz
    by_cases h0 : 0 ≤ sz
    · rw [if_pos h0, Res.bind_ok]
      unfold read
      simp only [hb]
      by_cases h1 : sz ≤ l'.length
      · rw [if_pos (by omega), if_pos ⟨h0, h1⟩]
      · rw [if_neg (by omega), if_neg (by omega)]
    · rw [if_neg h0, if_neg (by omega)]
      rfl

/-- C140, the conversion of a vector is a view: after any further history of operations on any vectors in which `v` is neither destroyed nor moved from
and never needs more than the capacity it had, reading the view gives the first elements `v` has *then*; with fewer elements than the view has, it is
undefined behaviour. -/
theorem C140_alias (before : List (Op α)) (w : World α) (hw : run empty before = .ok w) (v : ℕ) (size : ℤ) (m : View)
    (hm : toEigenView w v size = .ok m) (c : ℕ) (hc : w.cap v = some c) (after : List (Op α)) (w' : World α) (h : run w after = .ok w')
    (hq : ∀ o ∈ after, Quiet v c o)
    (hsize : ∀ k wk l1, run w (after.take k) = .ok wk → wk.elems v = some l1 → l1.length ≤ c) :
    ∃ l, w'.elems v = some l ∧ read w' m = if m.len ≤ l.length then .ok (l.take m.len) else .ub := by
  obtain ⟨l0, c0, hv, hb, -⟩ := view_inv hm
  have : c0 = c := by
    unfold World.cap World.vec at hc
    rw [hv, Option.bind_some, hb] at hc
    simpa using hc
  subst this
  obtain ⟨k1, l1, k2⟩ := run_keep (WF.empty.run hw) hv hb h hq hsize
  refine ⟨l1, ?_, ?_⟩
  · unfold World.elems World.vec
    rw [k1, Option.bind_some, k2]; rfl
  · unfold read
    rw [k2]

/-! ### dangling views -/

theorem step_dead {w w' : World α} {b : ℕ} (hb : w.heap b = none) (hlt : b < w.next) {o : Op α} (h : step w o = .ok w') :
    w'.heap b = none ∧ b < w'.next := by
  have st : ∀ (v' b' : ℕ) (x : List α × ℕ) (l : List α) (c nc : ℕ), w.heap b' = some x →
      (store w v' b' l c nc).heap b = none ∧ b < (store w v' b' l c nc).next := by
    intro v' b' x l c nc hb'
    have hbb : b ≠ b' := by
      rintro rfl
      rw [hb] at hb'; cases hb'
    unfold store
    split_ifs
    · exact ⟨by simp only [upd, if_neg hbb, hb], hlt⟩
    · refine ⟨?_, Nat.lt_succ_of_lt hlt⟩
      simp only [upd]
      rw [if_neg (by omega), if_neg hbb, hb]
  cases o with
  | set v' i x =>
    simp only [EigenView.step] at h
    split at h
    · cases h
    · split at h
      · cases h
      · rename_i hb'
        split_ifs at h
        cases h
        exact st _ _ _ _ _ _ hb'
  | push v' x nc =>
    simp only [EigenView.step] at h
    split at h
    · cases h
    · split at h
      · cases h
      · rename_i hb'
        cases h
        exact st _ _ _ _ _ _ hb'
  | pop v' =>
    simp only [EigenView.step] at h
    split at h
    · cases h
    · split at h
      · cases h
      · rename_i hb'
        split_ifs at h
        cases h
        exact st _ _ _ _ _ _ hb'
  | reserve v' n =>
    simp only [EigenView.step] at h
    split at h
    · cases h
    · split at h
      · cases h
      · rename_i hb'
        split_ifs at h with hc
        · cases h; exact ⟨hb, hlt⟩
        · cases h
          refine ⟨?_, Nat.lt_succ_of_lt hlt⟩
          simp only [upd]
          rw [if_neg (by omega)]
          split_ifs
          · rfl
          · exact hb
  | create v' l' =>
    simp only [EigenView.step] at h
    split at h
    · cases h
    · cases h
      refine ⟨?_, Nat.lt_succ_of_lt hlt⟩
      simp only [upd]
      rw [if_neg (by omega), hb]
  | move v' v2 =>
    simp only [EigenView.step] at h
    split at h
    · cases h
      refine ⟨?_, Nat.lt_succ_of_lt hlt⟩
      simp only [upd]
      rw [if_neg (by omega), hb]
    · cases h
  | destroy v' =>
    simp only [EigenView.step] at h
    split at h
    · cases h
    · cases h
      refine ⟨?_, hlt⟩
      simp only [upd]
      split_ifs
      · rfl
      · exact hb

theorem run_dead {w w' : World α} {b : ℕ} (hb : w.heap b = none) (hlt : b < w.next) {os : List (Op α)} (h : run w os = .ok w') :
    w'.heap b = none := by
  induction os generalizing w with
  | nil => cases h; exact hb
  | cons o os ih =>
    unfold EigenView.run at h
    cases h1 : EigenView.step w o with
    | ub => rw [h1] at h; cases h
    | ok w1 =>
      rw [h1] at h
      obtain ⟨k1, k2⟩ := step_dead hb hlt h1
      exact ih k1 k2 h

/-- C140, dangling views: once the vector is destroyed, appended to when it is full, or given a larger capacity, reading the view is undefined
behaviour, whatever happens afterwards.  In particular the conversion of a temporary vector cannot be used after the full expression. -/
theorem C140_dangling (before : List (Op α)) (w : World α) (hw : run empty before = .ok w) (v : ℕ) (size : ℤ) (m : View)
    (hm : toEigenView w v size = .ok m) (l : List α) (hl : w.elems v = some l) (c : ℕ) (hc : w.cap v = some c) (o : Op α)
    (ho : o = .destroy v ∨ (∃ x nc, o = .push v x nc ∧ l.length = c) ∨ ∃ n, o = .reserve v n ∧ c < n)
    (after : List (Op α)) (w' : World α) (h : run w (o :: after) = .ok w') : read w' m = .ub := by
  obtain ⟨l0, c0, hv, hb, -⟩ := view_inv hm
  have hwf := WF.empty.run hw
  have hlt := (hwf.live v _ hv).1
  obtain rfl : c0 = c := by
    unfold World.cap World.vec at hc
    rw [hv, Option.bind_some, hb] at hc
    simpa using hc
  obtain rfl : l0 = l := by
    unfold World.elems World.vec at hl
    rw [hv, Option.bind_some, hb] at hl
    simpa using hl
  unfold EigenView.run at h
  have key : ∃ w1, EigenView.step w o = .ok w1 ∧ w1.heap m.buf = none ∧ m.buf < w1.next := by
    rcases ho with rfl | ⟨x, nc, rfl, hx⟩ | ⟨n, rfl, hn⟩
    · refine ⟨{ w with heap := Function.update w.heap m.buf none, vecs := Function.update w.vecs v none }, ?_, ?_, hlt⟩
      · simp only [EigenView.step, hv]
      · simp only [upd, if_true]
    · refine ⟨store w v m.buf (l0 ++ [x]) c0 nc, ?_, ?_, ?_⟩
      · simp only [EigenView.step, hv, hb]
      · unfold store
        rw [if_neg (by simp [hx])]
        simp only [upd, if_true]
        rw [if_neg (by omega)]
      · unfold store
        rw [if_neg (by simp [hx])]
        exact Nat.lt_succ_of_lt hlt
    · refine ⟨{ heap := Function.update (Function.update w.heap m.buf none) w.next (some (l0, n)),
                vecs := Function.update w.vecs v (some w.next), next := w.next + 1 }, ?_, ?_, Nat.lt_succ_of_lt hlt⟩
      · simp only [EigenView.step, hv, hb]
        rw [if_neg (not_le.mpr hn)]
      · simp only [upd, if_true]
        rw [if_neg (by omega)]
  obtain ⟨w1, e1, e2, e3⟩ := key
  rw [e1, Res.bind_ok] at h
  unfold read
  rw [run_dead e2 e3 h]

/-- C140, moved vectors: the view of a vector is from then on the view of the vector it is moved to (so that `C140_alias` and `C140_dangling` speak of
that vector). -/
theorem C140_move (before : List (Op α)) (w : World α) (hw : run empty before = .ok w) (v v2 : ℕ) (size : ℤ) (m : View)
    (hm : toEigenView w v size = .ok m) (w' : World α) (h : run w [.move v v2] = .ok w') :
    toEigenView w' v2 size = .ok m ∧ w'.elems v2 = w.elems v ∧ w'.elems v = some [] := by
  obtain ⟨l0, c0, hv, hb, -⟩ := view_inv hm
  have hlt := ((WF.empty.run hw).live v _ hv).1
  cases hv2 : w.vecs v2 with
  | some b2 => simp [EigenView.run, EigenView.step, hv, hv2] at h
  | none =>
    have hvv : v ≠ v2 := by
      rintro rfl
      rw [hv] at hv2; cases hv2
    simp only [EigenView.run, EigenView.step, hv, hv2, Res.bind_ok, Res.ok.injEq] at h
    subst h
    have hne : m.buf ≠ w.next := by omega
    refine ⟨?_, ?_, ?_⟩
    · unfold toEigenView at hm ⊢
      simp only [hv, hb] at hm
      simp only [upd, if_true, if_neg hne, hb]
      exact hm
    · unfold World.elems World.vec
      simp only [upd, if_true, Option.bind_some, if_neg hne, hv]
    · unfold World.elems World.vec
      simp only [upd, if_neg hvv, if_true, Option.bind_some]
      rfl

/-- C140 (negation of "the conversion of a vector has the values the vector had"): an assignment to an element of the vector is seen through the view. -/
theorem C140_snapshot_false : ∃ (w w' : World ℕ) (m : View), run empty [.create 0 [1, 2, 3]] = .ok w ∧ toEigenView w 0 (-1) = .ok m ∧
    read w m = .ok [1, 2, 3] ∧ run w [.set 0 1 7] = .ok w' ∧ read w' m = .ok [1, 7, 3] :=
  ⟨_, _, _, rfl, rfl, rfl, rfl, rfl⟩

/-- C140, arrays: the default conversion of an array of fewer than `2^31` elements is a copy of all of it, an explicit size copies the first elements, and
a size beyond the array compiles and is undefined behaviour. -/
theorem C140_array (a : List α) (h : a.length < 2 ^ 31) (n : ℕ) :
    toEigenFixed a (-1) = .ok a ∧ (n ≤ a.length → toEigenFixed a n = .ok (a.take n)) ∧ (a.length < n → toEigenFixed a n = .ub) := by
  have e : toEigenFixed a = toEigen a := rfl
  rw [e]
  exact ⟨(C82_round_trip a h).1, (C82_size a n).1, (C82_size a n).2.1⟩

-- the hypotheses are met: a vector with spare capacity is changed and appended to; the view follows it until the storage is full
example : ∃ (w w' w'' : World ℕ) (m : View),
    run empty [.create 0 [1, 2, 3], .reserve 0 5, .create 1 [9]] = .ok w ∧ toEigenView w 0 (-1) = .ok m ∧ w.cap 0 = some 5 ∧
    run w [.set 0 0 8, .push 0 4 100, .push 1 4 100, .push 0 5 100] = .ok w' ∧ read w' m = .ok [8, 2, 3] ∧
    run w' [.push 0 6 100] = .ok w'' ∧ read w'' m = .ub :=
  ⟨_, _, _, _, rfl, rfl, rfl, rfl, rfl, rfl, rfl⟩

end EigenView
end SciCpp
