import Verif.Proofs.Decimal
/-
  Reading back printed numbers.
-/
namespace SciCpp
open Spec

theorem isDig_ofNat {d : ℕ} (h : d < 10) : isDig (Char.ofNat (48 + d)) = true := by
  unfold isDig; rw [digitVal_ofNat h]; rfl

theorem isDig_printNat (n : ℕ) : ∀ ch ∈ printNat n, isDig ch = true := by
  intro ch hch
  obtain ⟨d, hd, rfl⟩ := printNat_digits n ch hch
  exact isDig_ofNat hd

theorem length_printNat (P n : ℕ) (hP : 1 ≤ P) (h1 : 10 ^ (P - 1) ≤ n ∨ P = 1) (h2 : n < 10 ^ P) :
    (printNat n).length = P := by
  induction P generalizing n with
  | zero => omega
  | succ P ih =>
    unfold printNat
    split
    · rename_i h
      rcases h1 with h1 | h1
      · have : P = 0 := by
          by_contra hc
          have : 10 ^ 1 ≤ 10 ^ P := Nat.pow_le_pow_right (by norm_num) (by omega)
          simp only [Nat.add_sub_cancel] at h1
          omega
        subst this; rfl
      · have : P = 0 := by omega
        subst this; rfl
    · rename_i h
      have hP0 : P ≠ 0 := by rintro rfl; simp at h2; omega
      rw [List.length_append, ih (n / 10) (by omega)]
      · rfl
      · left
        rcases h1 with h1 | h1
        · simp only [Nat.add_sub_cancel] at h1
          rw [Nat.le_div_iff_mul_le (by norm_num), ← pow_succ]
          rwa [show P - 1 + 1 = P by omega]
        · omega
      · rw [Nat.div_lt_iff_lt_mul (by norm_num), ← pow_succ]; exact h2

/-- Digits followed by something that does not start with a digit. -/
theorem takeWhile_dig {a b : List Char} (ha : ∀ ch ∈ a, isDig ch = true) (hb : b.takeWhile isDig = []) :
    (a ++ b).takeWhile isDig = a ∧ (a ++ b).dropWhile isDig = b := by
  have hb' : b.dropWhile isDig = b := by
    have := List.takeWhile_append_dropWhile (p := isDig) (l := b)
    rwa [hb, List.nil_append] at this
  rw [List.takeWhile_append_of_pos ha, List.dropWhile_append_of_pos ha, hb, hb', List.append_nil]
  exact ⟨rfl, rfl⟩

theorem readDigits_append' (a b : List Char) (ha : ∀ ch ∈ a, isDig ch = true) (acc : ℕ) :
    readDigits (a ++ b) acc = readDigits b (readDigits a acc) :=
  readDigits_append a b acc fun ch hch => ha ch hch

theorem scanDec_join (ip fp tail : List Char) (hip : ∀ ch ∈ ip, isDig ch = true) (hne : ip ≠ [])
    (hfp : ∀ ch ∈ fp, isDig ch = true) (ht : tail.takeWhile isDig = [])
    (hdot : tail.head? ≠ some '.') :
    scanDec (joinFrac ip fp ++ tail) =
      some ((readDigits (ip ++ fp) 0 : ℚ) * (10 : ℚ) ^ ((scanExp tail).1 - (fp.length : ℤ)),
        (scanExp tail).2) := by
  unfold scanDec joinFrac
  by_cases h : fp = []
  · subst h
    obtain ⟨e1, e2⟩ := takeWhile_dig hip ht
    have hsf : scanFrac tail = ([], tail) := by
      cases tail with
      | nil => rfl
      | cons c t =>
        have hc : c ≠ '.' := by rintro rfl; exact hdot rfl
        simp only [scanFrac, if_neg hc]
    simp only [if_true, e1, e2, hsf, List.append_nil]
    rw [if_neg hne]
  · rw [if_neg h, List.append_assoc, List.cons_append]
    obtain ⟨e1, e2⟩ := takeWhile_dig (b := '.' :: (fp ++ tail)) hip (by
      rw [List.takeWhile_cons_of_neg (by decide)])
    obtain ⟨e3, e4⟩ := takeWhile_dig hfp ht
    have hsf : scanFrac ('.' :: (fp ++ tail)) = (fp, tail) := by
      simp only [scanFrac, if_true, e3, e4]
    simp only [e1, e2, hsf]
    rw [if_neg (by simp [hne])]

theorem dropZeros_dig {fp : List Char} (h : ∀ ch ∈ fp, isDig ch = true) :
    ∀ ch ∈ dropZeros fp, isDig ch = true := by
  intro ch hch
  exact h ch ((List.rdropWhile_prefix _ _).subset hch)

/-- Trailing zeros of the fraction do not matter. -/
theorem dropZeros_val (ip fp : List Char) (hip : ∀ ch ∈ ip, isDig ch = true)
    (hfp : ∀ ch ∈ fp, isDig ch = true) (ex : ℤ) :
    (readDigits (ip ++ dropZeros fp) 0 : ℚ) * (10 : ℚ) ^ (ex - ((dropZeros fp).length : ℤ)) =
      (readDigits (ip ++ fp) 0 : ℚ) * (10 : ℚ) ^ (ex - (fp.length : ℤ)) := by
  induction fp using List.reverseRecOn with
  | nil => rfl
  | append_singleton fp c ih =>
    have hfp' : ∀ ch ∈ fp, isDig ch = true := fun ch h => hfp ch (by simp [h])
    by_cases hc : c = '0'
    · subst hc
      have e : dropZeros (fp ++ ['0']) = dropZeros fp := by
        unfold dropZeros
        exact List.rdropWhile_concat_pos _ _ _ (by decide)
      rw [e, ih hfp', ← List.append_assoc]
      rw [readDigits_append' (ip ++ fp) ['0'] (by
        intro ch hch
        rcases List.mem_append.1 hch with h | h
        · exact hip ch h
        · exact hfp' ch h)]
      have : ∀ acc, readDigits ['0'] acc = 10 * acc := fun acc => rfl
      rw [this, List.length_append, List.length_singleton]
      push_cast
      rw [show ex - (fp.length : ℤ) = (ex - ((fp.length : ℤ) + 1)) + 1 by ring,
        zpow_add_one₀ (by norm_num)]
      ring
    · have e : dropZeros (fp ++ [c]) = fp ++ [c] := by
        unfold dropZeros
        exact List.rdropWhile_concat_neg _ _ _ (by simpa using hc)
      rw [e]

theorem scanExp_expText (X : ℤ) : scanExp ('e' :: expText X) = (X, []) := by
  have hd : ∀ ds : List Char, (∀ ch ∈ ds, isDig ch = true) → ds ≠ [] → readDigits ds 0 = X.natAbs →
      scanExp ('e' :: (if X < 0 then '-' else '+') :: ds) = (X, []) := by
    intro ds h1 h2 h3
    obtain ⟨e1, e2⟩ := takeWhile_dig (b := []) h1 rfl
    rw [List.append_nil] at e1 e2
    simp only [scanExp, true_or, if_true]
    by_cases hX : X < 0
    · simp only [hX, if_true, List.head?_cons, true_or, List.tail_cons, e1, e2, h3]
      rw [if_neg h2]
      congr 1; omega
    · simp only [hX, if_false, List.head?_cons, or_true, if_true, List.tail_cons, e1, e2, h3]
      rw [if_neg h2]
      have : ¬ (some '+' = some '-') := by decide
      rw [if_neg this]
      congr 1; omega
  unfold expText
  by_cases h : X.natAbs < 10
  · rw [if_pos h]
    refine hd _ ?_ (by simp) ?_
    · intro ch hch
      rcases List.mem_cons.1 hch with rfl | hch
      · decide
      · exact isDig_printNat _ ch hch
    · show readDigits (printNat X.natAbs) (10 * 0 + 0) = _
      rw [show 10 * 0 + 0 = 0 from rfl]
      exact readDigits_printNat _
  · rw [if_neg h]
    exact hd _ (isDig_printNat _) (printNat_ne_nil _) (readDigits_printNat _)

theorem readDigits_zeros (j : ℕ) (s : List Char) :
    readDigits (List.replicate j '0' ++ s) 0 = readDigits s 0 := by
  induction j with
  | zero => rfl
  | succ j ih =>
    rw [List.replicate_succ, List.cons_append]
    show readDigits _ (10 * 0 + 0) = _
    exact ih

/-- The text of `%.6g` reads back as the six digit decimal. -/
theorem scanDec_layoutG (k : ℕ) (X : ℤ) (h1 : 10 ^ 5 ≤ k) (h2 : k < 10 ^ 6) :
    scanDec (layoutG k X) = some (decVal 6 (k, X), []) := by
  have hlen : (printNat k).length = 6 := length_printNat 6 k (by norm_num) (Or.inl h1) h2
  have hdig := isDig_printNat k
  have hval : decVal 6 (k, X) = (k : ℚ) * (10 : ℚ) ^ (X - 5) := by
    unfold decVal
    congr 2; push_cast; ring
  rw [hval]
  unfold layoutG
  simp only
  split
  · rename_i hX
    split
    · rename_i hX0
      have htd : ∀ ch ∈ (printNat k).take (X + 1).toNat, isDig ch = true :=
        fun ch h => hdig ch (List.mem_of_mem_take h)
      have hdd : ∀ ch ∈ (printNat k).drop (X + 1).toNat, isDig ch = true :=
        fun ch h => hdig ch (List.mem_of_mem_drop h)
      have := scanDec_join ((printNat k).take (X + 1).toNat) (dropZeros ((printNat k).drop (X + 1).toNat)) []
        htd (by
          intro h
          have := congrArg List.length h
          rw [List.length_take, hlen] at this
          simp at this; omega) (dropZeros_dig hdd) rfl (by simp)
      rw [List.append_nil] at this
      rw [this]
      congr 2
      show _ * (10 : ℚ) ^ ((0 : ℤ) - _) = _
      rw [dropZeros_val _ _ htd hdd, List.take_append_drop, readDigits_printNat, List.length_drop, hlen]
      congr 2; omega
    · rename_i hX0
      have hz : ∀ ch ∈ List.replicate (-X - 1).toNat '0' ++ printNat k, isDig ch = true := by
        intro ch hch
        rcases List.mem_append.1 hch with h | h
        · rw [List.eq_of_mem_replicate h]; decide
        · exact hdig ch h
      have hip : ∀ ch ∈ ['0'], isDig ch = true := by intro ch h; rw [List.mem_singleton.1 h]; decide
      have := scanDec_join ['0'] (dropZeros (List.replicate (-X - 1).toNat '0' ++ printNat k)) []
        hip (by simp) (dropZeros_dig hz) rfl (by simp)
      rw [List.append_nil] at this
      rw [this]
      congr 2
      show _ * (10 : ℚ) ^ ((0 : ℤ) - _) = _
      rw [dropZeros_val _ _ hip hz]
      have e : readDigits (['0'] ++ (List.replicate (-X - 1).toNat '0' ++ printNat k)) 0 = k := by
        rw [← List.append_assoc, show ['0'] ++ List.replicate (-X - 1).toNat '0'
          = List.replicate ((-X - 1).toNat + 1) '0' from rfl, readDigits_zeros, readDigits_printNat]
      rw [e, List.length_append, List.length_replicate, hlen]
      congr 2; omega
  · have htd : ∀ ch ∈ (printNat k).take 1, isDig ch = true :=
      fun ch h => hdig ch (List.mem_of_mem_take h)
    have hdd : ∀ ch ∈ (printNat k).drop 1, isDig ch = true :=
      fun ch h => hdig ch (List.mem_of_mem_drop h)
    rw [scanDec_join ((printNat k).take 1) (dropZeros ((printNat k).drop 1)) ('e' :: expText X)
      htd (by
        intro h
        have := congrArg List.length h
        rw [List.length_take, hlen] at this
        simp at this) (dropZeros_dig hdd) (by rw [List.takeWhile_cons_of_neg (by decide)]) (by simp),
      scanExp_expText]
    congr 2
    simp only
    rw [dropZeros_val _ _ htd hdd, List.take_append_drop, readDigits_printNat, List.length_drop, hlen]
    congr 1

/-- Printed numbers start with a digit. -/
theorem joinFrac_head (c : Char) (ip fp : List Char) :
    joinFrac (c :: ip) fp = c :: joinFrac ip fp := by
  unfold joinFrac; split <;> rfl

theorem layoutG_head (k : ℕ) (X : ℤ) (h1 : 10 ^ 5 ≤ k) (h2 : k < 10 ^ 6) :
    ∃ c t, layoutG k X = c :: t ∧ isDig c = true := by
  have hlen : (printNat k).length = 6 := length_printNat 6 k (by norm_num) (Or.inl h1) h2
  have hdig := isDig_printNat k
  obtain ⟨c, t, e⟩ := List.exists_cons_of_ne_nil (printNat_ne_nil k)
  have hc : isDig c = true := hdig c (by rw [e]; simp)
  unfold layoutG
  simp only [e]
  split
  · rename_i hX
    split
    · rename_i hX0
      obtain ⟨j, hj⟩ : ∃ j, (X + 1).toNat = j + 1 := ⟨X.toNat, by omega⟩
      rw [hj, List.take_succ_cons, joinFrac_head]
      exact ⟨c, _, rfl, hc⟩
    · rw [joinFrac_head]
      exact ⟨'0', _, rfl, by decide⟩
  · rw [List.take_succ_cons, joinFrac_head]
    exact ⟨c, _, rfl, hc⟩

theorem isDig_cases {c : Char} (h : isDig c = true) : ∃ d < 10, c = Char.ofNat (48 + d) := by
  unfold isDig digitVal at h
  split at h
  · rename_i hc
    have h1 : 48 ≤ c.toNat := hc.1
    have h2 : c.toNat ≤ 57 := hc.2
    refine ⟨c.toNat - 48, by omega, ?_⟩
    rw [show 48 + (c.toNat - 48) = c.toNat by omega, Char.ofNat_toNat]
  · cases h

/-- Something that starts with a digit is read as an unsigned decimal; with a sign before it likewise. -/
theorem scanNum_dig (c : Char) (t : List Char) (hc : isDig c = true) :
    scanNum (c :: t) = (scanDec (c :: t)).map (fun r => (.fin r.1, r.2)) ∧
    scanNum ('-' :: c :: t) = (scanDec (c :: t)).map (fun r => (.fin (-r.1), r.2)) := by
  obtain ⟨d, hd, rfl⟩ := isDig_cases hc
  have hu : scanUnsigned (Char.ofNat (48 + d) :: t) =
      (scanDec (Char.ofNat (48 + d) :: t)).map fun r => (.fin r.1, r.2) := by
    unfold scanUnsigned
    rw [if_neg, if_neg]
    · intro h
      rw [List.take_succ_cons] at h
      have := (List.cons.inj h).1
      interval_cases d <;> revert this <;> decide
    · intro h
      rw [List.take_succ_cons] at h
      have := (List.cons.inj h).1
      interval_cases d <;> revert this <;> decide
  constructor
  · unfold scanNum
    have hs : isSpaceC (Char.ofNat (48 + d)) = false := by interval_cases d <;> decide
    rw [List.dropWhile_cons_of_neg (by simp [hs])]
    simp only
    rw [if_neg, if_neg, hu]
    · intro h
      simp only [List.head?_cons, Option.some.injEq] at h
      interval_cases d <;> revert h <;> decide
    · intro h
      simp only [List.head?_cons, Option.some.injEq] at h
      interval_cases d <;> revert h <;> decide
  · unfold scanNum
    rw [List.dropWhile_cons_of_neg (by decide)]
    simp only [List.head?_cons, if_true, List.tail_cons, hu, Option.map_map]
    rfl

/-- The decimal number printed for a finite value. -/
def dec6 (q : ℚ) : ℚ :=
  if q = 0 then 0 else if q < 0 then -decVal 6 (decRound 6 (-q)) else decVal 6 (decRound 6 q)

theorem scanNum_fmtG (q : ℚ) : scanNum (fmtG (.fin q)) = some (.fin (dec6 q), []) := by
  unfold fmtG dec6
  by_cases h0 : q = 0
  · simp only [h0, if_true]
    rw [(scanNum_dig '0' [] (by decide)).1]
    decide +kernel
  · simp only [h0, if_false]
    by_cases hn : q < 0
    · simp only [hn, if_true]
      obtain ⟨s1, s2, _⟩ := decRound_spec 6 (by norm_num) (-q) (by linarith)
      obtain ⟨c, t, e, hc⟩ := layoutG_head _ (decRound 6 (-q)).2 s1 s2
      rw [e, (scanNum_dig c t hc).2, ← e, scanDec_layoutG _ _ s1 s2]
      rfl
    · simp only [hn, if_false]
      obtain ⟨s1, s2, _⟩ := decRound_spec 6 (by norm_num) q (lt_of_le_of_ne (not_lt.1 hn) (Ne.symm h0))
      obtain ⟨c, t, e, hc⟩ := layoutG_head _ (decRound 6 q).2 s1 s2
      rw [e, (scanNum_dig c t hc).1, ← e, scanDec_layoutG _ _ s1 s2]
      rfl

theorem dec6_nearest (q : ℚ) : IsNearestDecimal 6 q (dec6 q) := by
  unfold dec6
  split_ifs with h0 hn
  · subst h0
    exact ⟨⟨0, 0, by norm_num, by simp⟩, fun d' _ => by simp⟩
  · have := nearest_neg (decRound_nearest 6 (by norm_num) (-q) (by linarith))
    rwa [neg_neg] at this
  · exact decRound_nearest 6 (by norm_num) q (lt_of_le_of_ne (not_lt.1 hn) (Ne.symm h0))

theorem dec6_err (q : ℚ) : |dec6 q - q| ≤ 1 / 200000 * |q| := by
  unfold dec6
  split_ifs with h0 hn
  · subst h0; simp
  · have := decRound_err 6 (by norm_num) (-q) (by linarith)
    rw [show -decVal 6 (decRound 6 (-q)) - q = -(decVal 6 (decRound 6 (-q)) - -q) by ring, abs_neg,
      abs_of_neg hn]
    norm_num at this ⊢
    linarith
  · have hp := lt_of_le_of_ne (not_lt.1 hn) (Ne.symm h0)
    have := decRound_err 6 (by norm_num) q hp
    rw [abs_of_pos hp]
    norm_num at this ⊢
    linarith

/-- The printed text is determined by the decimal. -/
theorem fmtG_of_dec6 {p q : ℚ} (h : dec6 p = dec6 q) (hp : p ≠ 0) (hpq : 0 < p * q) :
    fmtG (.fin p) = fmtG (.fin q) := by
  have hq : q ≠ 0 := by rintro rfl; simp at hpq
  unfold dec6 at h
  unfold fmtG
  simp only [hp, hq, if_false] at h ⊢
  by_cases hn : p < 0
  · have hn' : q < 0 := by
      by_contra hc
      have := mul_nonpos_of_nonpos_of_nonneg hn.le (not_lt.1 hc)
      linarith
    simp only [hn, hn', if_true, neg_inj] at h ⊢
    obtain ⟨s1, s2, _⟩ := decRound_spec 6 (by norm_num) (-p) (by linarith)
    obtain ⟨t1, t2, _⟩ := decRound_spec 6 (by norm_num) (-q) (by linarith)
    rw [decVal_inj (by norm_num) s1 s2 t1 t2 h]
  · have hp' := lt_of_le_of_ne (not_lt.1 hn) (Ne.symm hp)
    have hq' : 0 < q := by
      by_contra hc
      have := mul_nonpos_of_nonneg_of_nonpos hp'.le (not_lt.1 hc)
      linarith
    have hn' : ¬ q < 0 := by linarith
    simp only [hn, hn', if_false] at h ⊢
    obtain ⟨s1, s2, _⟩ := decRound_spec 6 (by norm_num) p hp'
    obtain ⟨t1, t2, _⟩ := decRound_spec 6 (by norm_num) q hq'
    rw [decVal_inj (by norm_num) s1 s2 t1 t2 h]

end SciCpp
